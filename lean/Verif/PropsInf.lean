import Verif.PropsSum
/-!
# C13: infinities and NaN
-/

namespace Repro
open Fmt
variable {F : Fmt}

/-- What kind of number a bit pattern is. -/
inductive Kind where
  | fin
  | inf (neg : Bool)
  | nan
deriving DecidableEq, Repr

namespace Kind
/-- Kind of a sum. -/
def add : Kind → Kind → Kind
  | nan, _ => nan
  | _, nan => nan
  | fin, b => b
  | a, fin => a
  | inf a, inf b => if a = b then inf a else nan

def neg : Kind → Kind
  | inf a => inf (!a)
  | a => a

theorem add_comm (a b : Kind) : a.add b = b.add a := by
  cases a <;> cases b <;> simp [add]
  rename_i a b; cases a <;> cases b <;> simp

theorem add_assoc (a b c : Kind) : (a.add b).add c = a.add (b.add c) := by
  rcases a with _ | (_ | _) | _ <;> rcases b with _ | (_ | _) | _ <;>
    rcases c with _ | (_ | _) | _ <;> rfl

@[simp] theorem fin_add (a : Kind) : fin.add a = a := by cases a <;> rfl
@[simp] theorem add_fin (a : Kind) : a.add fin = a := by cases a <;> rfl

theorem add_ne_fin {a b : Kind} (h : a ≠ fin) : a.add b ≠ fin := by
  cases a <;> cases b <;> simp_all [add]
  rename_i a b; cases a <;> cases b <;> simp

theorem add_eq_fin {a b : Kind} : a.add b = fin ↔ a = fin ∧ b = fin := by
  cases a <;> cases b <;> simp [add]
  rename_i a b; cases a <;> cases b <;> simp

theorem neg_add (a b : Kind) : (a.add b).neg = a.neg.add b.neg := by
  cases a <;> cases b <;> simp [add, neg]
  rename_i a b; cases a <;> cases b <;> simp
end Kind

/-- The kind of a bit pattern. -/
def Fmt.kind (F : Fmt) (x : Flt) : Kind :=
  if F.isNaN x then .nan else if F.isInf x then .inf x.neg else .fin

/-- Kind of the sum of a list. -/
def Fmt.kinds (F : Fmt) : List Flt → Kind
  | [] => .fin
  | x :: xs => (F.kind x).add (F.kinds xs)

theorem kind_fin {x : Flt} : F.kind x = .fin ↔ F.Finite x := by
  unfold kind
  rw [finite_iff]
  cases F.isNaN x <;> cases F.isInf x <;> simp

theorem kind_nan {x : Flt} : F.kind x = .nan ↔ F.isNaN x = true := by
  unfold kind
  cases F.isNaN x <;> cases F.isInf x <;> simp

theorem kind_inf {x : Flt} {s : Bool} : F.kind x = .inf s ↔ x = F.inf s := by
  unfold kind
  constructor
  · intro h
    by_cases hn : F.isNaN x = true
    · simp [hn] at h
    · by_cases hi : F.isInf x = true
      · simp [hn, hi] at h
        unfold isInf at hi
        unfold Fmt.inf
        simp at hi
        rw [← h, ← hi]
      · simp [hn, hi] at h
  · intro h
    subst h
    simp [isNaN, isInf, Fmt.inf]

theorem kinds_append (xs ys : List Flt) : F.kinds (xs ++ ys) = (F.kinds xs).add (F.kinds ys) := by
  induction xs with
  | nil => simp [kinds]
  | cons x xs ih => simp only [List.cons_append, kinds, ih, Kind.add_assoc]

theorem kinds_fneg (xs : List Flt) : F.kinds (xs.map fneg) = (F.kinds xs).neg := by
  induction xs with
  | nil => rfl
  | cons x xs ih =>
    simp only [List.map_cons, kinds, ih, Kind.neg_add]
    congr 1
    have : F.isNaN (fneg x) = F.isNaN x := rfl
    have h2 : F.isInf (fneg x) = F.isInf x := rfl
    have h3 : (fneg x).neg = !x.neg := rfl
    unfold kind; rw [this, h2, h3]
    cases F.isNaN x <;> cases F.isInf x <;> simp [Kind.neg]

theorem kinds_perm {xs ys : List Flt} (h : xs.Perm ys) : F.kinds xs = F.kinds ys := by
  induction h with
  | nil => rfl
  | cons x _ ih => simp only [kinds, ih]
  | swap x y l => simp only [kinds]; rw [← Kind.add_assoc, ← Kind.add_assoc, Kind.add_comm (F.kind y)]
  | trans _ _ h1 h2 => rw [h1, h2]

theorem kinds_fin {xs : List Flt} : F.kinds xs = .fin ↔ ∀ x ∈ xs, F.Finite x := by
  induction xs with
  | nil => simp [kinds]
  | cons x xs ih => simp [kinds, Kind.add_eq_fin, ih, kind_fin]

/-- Characterisation of the kind of a list in terms of its members. -/
theorem kinds_nan {xs : List Flt} : F.kinds xs = .nan ↔
    (∃ x ∈ xs, F.isNaN x = true) ∨ (F.inf false ∈ xs ∧ F.inf true ∈ xs) := by
  have aux : (∀ s, F.kinds xs = .inf s → F.inf s ∈ xs) ∧
      (F.kinds xs = .nan ↔ (∃ x ∈ xs, F.isNaN x = true) ∨ (F.inf false ∈ xs ∧ F.inf true ∈ xs)) ∧
      (∀ s, F.inf s ∈ xs → F.kinds xs = .inf s ∨ F.kinds xs = .nan) := by
    induction xs with
    | nil => simp [kinds]
    | cons x xs ih =>
      obtain ⟨i1, i2, i3⟩ := ih
      simp only [kinds]
      have hmem : ∀ s, F.inf s ∈ x :: xs ↔ F.kind x = .inf s ∨ F.inf s ∈ xs := by
        intro s; rw [List.mem_cons, kind_inf]
        constructor
        · rintro (h | h)
          · exact Or.inl h.symm
          · exact Or.inr h
        · rintro (h | h)
          · exact Or.inl h.symm
          · exact Or.inr h
      have hnan : (∃ z ∈ x :: xs, F.isNaN z = true) ↔ F.kind x = .nan ∨ ∃ z ∈ xs, F.isNaN z = true := by
        rw [kind_nan]; simp
      rw [hnan]
      simp only [hmem]
      cases hk : F.kind x with
      | nan => simp [Kind.add]
      | fin =>
        simp only [Kind.fin_add]
        simp
        exact ⟨⟨i1 false, i1 true⟩, i2, ⟨i3 false, i3 true⟩⟩
      | inf t =>
        cases hks : F.kinds xs with
        | nan =>
          have := i2.1 hks
          simp [Kind.add]
          rcases this with h | h
          · exact Or.inl h
          · right; exact ⟨Or.inr h.1, Or.inr h.2⟩
        | fin =>
          have hfin := kinds_fin.1 hks
          have hno : ∀ s, F.inf s ∉ xs := by
            intro s hm; have := hfin _ hm; unfold Finite Fmt.inf at this; simp at this
          have hnn : ¬ ∃ z ∈ xs, F.isNaN z = true := by
            rintro ⟨z, hz, hn⟩; have := (finite_iff.1 (hfin z hz)).1; simp [this] at hn
          cases t <;> simp [Kind.add, hno, hnn] <;> (intro a b; exact absurd b (fun hb => hnn ⟨a, b, hb⟩))
        | inf u =>
          have hnn : ¬ ((∃ z ∈ xs, F.isNaN z = true) ∨ (F.inf false ∈ xs ∧ F.inf true ∈ xs)) := by
            intro h; have := i2.2 h; rw [hks] at this; simp at this
          have hu := i1 u hks
          have hon : ∀ s, F.inf s ∈ xs → s = u := by
            intro s hs; rcases i3 s hs with h | h
            · rw [hks] at h; simpa using h.symm
            · rw [hks] at h; simp at h
          by_cases htu : t = u
          · subst htu
            have hadd : Kind.add (.inf t) (.inf t) = .inf t := by simp [Kind.add]
            rw [hadd]
            refine ⟨?_, ?_, ?_⟩
            · intro s hs; left; exact hs
            · constructor
              · intro h; simp at h
              · rintro ((h | h) | h)
                · simp at h
                · exact absurd (Or.inl h) hnn
                · cases t
                  · rcases h.2 with h | h
                    · simp at h
                    · have := hon _ h; simp at this
                  · rcases h.1 with h | h
                    · simp at h
                    · have := hon _ h; simp at this
            · rintro s (h | h)
              · left; exact h
              · left; rw [hon s h]
          · have hadd : Kind.add (.inf t) (.inf u) = .nan := by simp [Kind.add, htu]
            rw [hadd]
            refine ⟨by simp, ?_, by simp⟩
            simp only [true_iff]
            right
            cases t <;> cases u
            · exact absurd rfl htu
            · exact ⟨Or.inl rfl, Or.inr hu⟩
            · exact ⟨Or.inr hu, Or.inl rfl⟩
            · exact absurd rfl htu
  exact aux.2.1

/-! ### floating point addition on kinds -/

theorem kind_add_left [F.OK] {x y : Flt} (h : F.kind x ≠ .fin) : F.kind (F.add x y) = (F.kind x).add (F.kind y) := by
  have hn : F.kind F.nan = .nan := by
    rw [kind_nan]; unfold isNaN Fmt.nan; have := pow_pos' (F.p - 2); simp
  unfold Fmt.add
  by_cases xn : F.isNaN x = true
  · rw [xn, Bool.true_or, if_pos rfl, hn, kind_nan.2 xn]; cases F.kind y <;> rfl
  · by_cases yn : F.isNaN y = true
    · rw [yn, Bool.or_true, if_pos rfl, hn, kind_nan.2 yn]; cases F.kind x <;> rfl
    · have xi : F.isInf x = true := by
        by_contra hc
        exact h (kind_fin.2 (finite_iff.2 ⟨by simpa using xn, by simpa using hc⟩))
      have kx : F.kind x = .inf x.neg := by unfold kind; simp [xn, xi]
      simp only [xn, yn, Bool.or_self, Bool.false_eq_true, if_false, xi, if_true]
      by_cases yi : F.isInf y = true
      · have ky : F.kind y = .inf y.neg := by unfold kind; simp [yn, yi]
        rw [yi, kx, ky]
        by_cases hs : x.neg = y.neg
        · simp [hs, kx, Kind.add]
        · simp [hs, hn, Kind.add]
      · have ky : F.kind y = .fin := by unfold kind; simp [yn, yi]
        rw [ky]; simp [yi, Kind.add_fin]

theorem kind_add_right [F.OK] {x y : Flt} (h : F.kind y ≠ .fin) : F.kind (F.add x y) = (F.kind x).add (F.kind y) := by
  by_cases hx : F.kind x = .fin
  · rw [hx, Kind.fin_add]
    have hf := finite_iff.1 (kind_fin.1 hx)
    have hn : F.kind F.nan = .nan := by
      rw [kind_nan]; unfold isNaN Fmt.nan; have := pow_pos' (F.p - 2); simp
    unfold Fmt.add
    rw [hf.1, hf.2]
    by_cases yn : F.isNaN y = true
    · rw [yn, Bool.or_true, if_pos rfl, hn, kind_nan.2 yn]
    · have yi : F.isInf y = true := by
        by_contra hc
        exact h (kind_fin.2 (finite_iff.2 ⟨by simpa using yn, by simpa using hc⟩))
      simp [yn, yi]
  · exact kind_add_left hx

theorem isNaNInf_kind {x : Flt} : F.isNaNInf x = true ↔ F.kind x ≠ .fin := by
  rw [Ne, kind_fin]; unfold isNaNInf Finite; simp

theorem isNaNInf_kind' {x : Flt} : F.isNaNInf x = false ↔ F.kind x = .fin := by
  rw [kind_fin]; unfold isNaNInf Finite; simp

theorem kind_not_zero [F.OK] {x : Flt} (h : F.kind x ≠ .fin) : isZero x = false := by
  unfold isZero
  by_contra hc
  simp at hc
  apply h; rw [kind_fin]; unfold Finite; rw [hc]
  exact Nat.lt_of_le_of_lt (Nat.zero_le _) (emax_big (F := F))

/-! ### histories with arbitrary numbers -/

/-- Legal histories over arbitrary (also infinite and NaN) numbers. -/
def Hist.LegalX (F : Fmt) : Hist → Prop
  | zero => True
  | add _ h => h.LegalX F
  | update _ h => h.LegalX F
  | batch b xs h => (∀ x ∈ xs, F.dindex b ≤ F.dindex x) ∧ xs.length ≤ F.endurance ∧ h.LegalX F
  | merge h₁ h₂ => h₁.LegalX F ∧ h₂.LegalX F
  | negate h => h.LegalX F
  | renorm h => h.LegalX F

theorem legal_of_finite {h : Hist} (hl : h.LegalX F) (hk : F.kinds h.nums = .fin) : h.Legal F := by
  induction h with
  | zero => trivial
  | add x h ih =>
    simp only [Hist.nums, kinds, Kind.add_eq_fin] at hk
    exact ⟨kind_fin.1 hk.1, ih hl hk.2⟩
  | update x h ih => exact ih hl hk
  | batch b xs h ih =>
    simp only [Hist.nums, kinds_append, Kind.add_eq_fin] at hk
    exact ⟨fun x hx => ⟨kinds_fin.1 hk.1 x hx, hl.1 x hx⟩, hl.2.1, ih hl.2.2 hk.2⟩
  | merge h₁ h₂ ih₁ ih₂ =>
    simp only [Hist.nums, kinds_append, Kind.add_eq_fin] at hk
    exact ⟨ih₁ hl.1 hk.1, ih₂ hl.2 hk.2⟩
  | negate h ih =>
    simp only [Hist.nums, kinds_fneg] at hk
    exact ih hl (by cases hh : F.kinds h.nums <;> simp_all [Kind.neg])
  | renorm h ih => exact ih hl hk

theorem dmddeposit_length (x : Flt) (pri : List Flt) : (F.dmddeposit x pri).length = pri.length := by
  have hl : ∀ (l : List Flt) (x : Flt), (F.depositLoop x l).length = l.length := by
    intro l
    induction l with
    | nil => intro _; rfl
    | cons m ms ih =>
      intro x
      cases ms with
      | nil => rfl
      | cons m' ms' => simp only [depositLoop, List.length_cons]; rw [ih]; rfl
  unfold dmddeposit
  split
  · cases pri <;> rfl
  · split
    · cases pri <;> simp [hl]
    · exact hl _ _

/-- Deposit on something non-finite (either the number or the accumulator). -/
theorem deposit_special [F.OK] {x : Flt} {pri : List Flt} (hlen : 1 ≤ pri.length)
    (h : F.kind x ≠ .fin ∨ F.kind (nth pri 0) ≠ .fin) :
    F.kind (nth (F.dmddeposit x pri) 0) = (F.kind (nth pri 0)).add (F.kind x) := by
  cases pri with
  | nil => simp at hlen
  | cons m ms =>
    have e : nth (m :: ms) 0 = m := rfl
    rw [e] at h ⊢
    unfold dmddeposit
    have : (F.isNaNInf x || F.isNaNInf (nth (m :: ms) 0)) = true := by
      rw [e]
      rcases h with h | h
      · rw [isNaNInf_kind.2 h]; rfl
      · rw [isNaNInf_kind.2 h]; simp
    rw [if_pos this]
    show F.kind (F.add m x) = _
    rcases h with h | h
    · exact kind_add_right h
    · exact kind_add_left h

theorem renorm_special {y : Binned} (h : F.kind (nth y.pri 0) ≠ .fin) : F.dmrenorm y = y := by
  unfold dmrenorm; rw [isNaNInf_kind.2 h]; simp

theorem update_special {fold : Nat} {x : Flt} {y : Binned} (h : F.kind (nth y.pri 0) ≠ .fin) :
    F.dmdupdate fold x y = y := by
  unfold dmdupdate; rw [isNaNInf_kind.2 h]; rfl

theorem update_length {fold : Nat} {x : Flt} {y : Binned} (h : y.pri.length = fold) :
    (F.dmdupdate fold x y).pri.length = fold := by
  unfold dmdupdate
  split
  · exact h
  · split
    · simp
    · dsimp only
      split
      · simp
      · exact h

theorem renorm_length {y : Binned} : (F.dmrenorm y).pri.length = y.pri.length := by
  unfold dmrenorm; split <;> simp

theorem eval_length {fold : Nat} (h : Hist) : (h.eval F fold).pri.length = fold := by
  induction h with
  | zero => simp [Hist.eval, dmsetzero]
  | add x h ih =>
    simp only [Hist.eval, dmdadd]
    rw [renorm_length]; show (F.dmddeposit _ _).length = _
    rw [dmddeposit_length, update_length ih]
  | update x h ih => exact update_length ih
  | batch b xs h ih =>
    simp only [Hist.eval]
    rw [renorm_length]
    have : ∀ (xs : List Flt) (y : Binned), (F.deposits xs y).pri.length = y.pri.length := by
      intro xs
      induction xs with
      | nil => intro y; rfl
      | cons x xs ih =>
        intro y
        have : F.deposits (x :: xs) y = F.deposits xs ⟨F.dmddeposit x y.pri, y.car⟩ := rfl
        rw [this, ih]; exact dmddeposit_length _ _
    rw [this, update_length ih]
  | merge h₁ h₂ ih₁ ih₂ =>
    simp only [Hist.eval]
    unfold dmdmadd
    split
    · exact ih₂
    · split
      · exact ih₁
      · split
        · dsimp only
          cases hp : (Hist.eval F fold h₂).pri with
          | nil => rw [hp] at ih₂; simpa using ih₂
          | cons m ms => rw [hp] at ih₂; simpa using ih₂
        · dsimp only
          split <;> (rw [renorm_length]; simp)
  | negate h ih =>
    simp only [Hist.eval, dmnegate]
    split
    · exact ih
    · simp
  | renorm h ih => simp only [Hist.eval]; rw [renorm_length]; exact ih

theorem deposits_special [F.OK] : ∀ (xs : List Flt) {y : Binned}, 1 ≤ y.pri.length → F.kind (nth y.pri 0) ≠ .fin →
    F.kind (nth (F.deposits xs y).pri 0) = (F.kind (nth y.pri 0)).add (F.kinds xs) := by
  intro xs
  induction xs with
  | nil => intro y _ _; simp [kinds, deposits]
  | cons x xs ih =>
    intro y hl hk
    have e : F.deposits (x :: xs) y = F.deposits xs ⟨F.dmddeposit x y.pri, y.car⟩ := rfl
    have h1 := deposit_special (F := F) (x := x) hl (Or.inr hk)
    rw [e, ih (by rw [dmddeposit_length]; exact hl) (by rw [h1]; exact Kind.add_ne_fin hk), h1, Kind.add_assoc]
    rfl

theorem deposits_mixed [F.OK] {fold k : Nat} (hfold : 2 ≤ fold) : ∀ (xs : List Flt) {n N : Nat} {A : Nat → Int} {y : Binned},
    F.Mid fold n N k A y → n + xs.length ≤ F.endurance → (∀ x ∈ xs, k ≤ F.dindex x) → F.kinds xs ≠ .fin →
    F.kind (nth (F.deposits xs y).pri 0) = F.kinds xs := by
  intro xs
  induction xs with
  | nil => intro n N A y _ _ _ h; exact absurd rfl h
  | cons x xs ih =>
    intro n N A y hm hn hx hk
    rw [List.length_cons] at hn
    have e : F.deposits (x :: xs) y = F.deposits xs ⟨F.dmddeposit x y.pri, y.car⟩ := rfl
    have hlen : 1 ≤ y.pri.length := by
      obtain ⟨B, C, Z, h1, _⟩ := hm; rw [h1]; unfold midZ; simp; omega
    have hfin : F.kind (nth y.pri 0) = .fin := isNaNInf_kind'.1 (hm.finite (by omega) (by omega))
    by_cases hxf : F.kind x = .fin
    · rw [e]
      have hx1 := kind_fin.1 hxf
      have h1 := hm.deposit (x := x) hfold (by omega) hx1 (fits_mono (hx x List.mem_cons_self) (fits_dindex hx1))
      have hk' : F.kinds xs ≠ .fin := by
        simp only [kinds, hxf, Kind.fin_add] at hk; exact hk
      rw [ih h1 (by omega) (fun z hz => hx z (List.mem_cons_of_mem _ hz)) hk']
      simp [kinds, hxf]
    · have h1 := deposit_special (F := F) (x := x) hlen (Or.inl hxf)
      rw [hfin, Kind.fin_add] at h1
      have h2 := deposits_special (F := F) xs (y := ⟨F.dmddeposit x y.pri, y.car⟩)
        (by show 1 ≤ (F.dmddeposit x y.pri).length; rw [dmddeposit_length]; exact hlen)
        (by show F.kind (nth (F.dmddeposit x y.pri) 0) ≠ _; rw [h1]; exact hxf)
      rw [e, h2]
      show (F.kind (nth (F.dmddeposit x y.pri) 0)).add _ = _
      rw [h1]; rfl

/-- The first primary of a history containing something non-finite is the sum of the kinds. -/
theorem hist_kind [F.OK] {fold : Nat} (hfold : 2 ≤ fold) (h : Hist) : h.LegalX F → h.nums.length ≤ F.capacity →
    F.kind (nth (h.eval F fold).pri 0) = F.kinds h.nums := by
  -- finite histories
  have hfinite : ∀ h : Hist, h.LegalX F → h.nums.length ≤ F.capacity → F.kinds h.nums = .fin →
      F.kind (nth (h.eval F fold).pri 0) = .fin := by
    intro h hl hN hk
    have hm := hist_mid (F := F) hfold h (legal_of_finite hl hk) hN
    by_cases hs : h.seen = []
    · rw [(hm.1 hs).1]
      unfold dmsetzero; dsimp only; rw [nth_setzero]; exact kind_fin.2 zero_finite
    · exact isNaNInf_kind'.1 ((hm.2.1 hs).finite (by omega) (Nat.zero_le _))
  -- after an update of a finite history
  have hupd : ∀ (h : Hist) (x : Flt), h.LegalX F → h.nums.length ≤ F.capacity → F.kinds h.nums = .fin →
      ∃ A, F.Mid fold 0 h.nums.length (F.minIndex (x :: h.seen)) A (F.dmdupdate fold x (h.eval F fold)) := by
    intro h x hl hN hk
    have hm := hist_mid (F := F) hfold (.update x h) (legal_of_finite (h := .update x h) hl hk) hN
    exact ⟨_, hm.2.1 (by simp [Hist.seen])⟩
  induction h with
  | zero => intro hl hN; exact hfinite _ hl hN rfl
  | add x h ih =>
    intro hl hN
    simp only [Hist.nums, List.length_cons] at hN
    have ih := ih hl (by omega)
    by_cases hk : F.kinds (Hist.add x h).nums = .fin
    · rw [hk]; exact hfinite _ hl (by simpa [Hist.nums] using hN) hk
    · have key : F.kind (nth (F.dmddeposit x (F.dmdupdate fold x (h.eval F fold)).pri) 0) = F.kinds (Hist.add x h).nums := by
        have hlen : 1 ≤ (F.dmdupdate fold x (h.eval F fold)).pri.length := by
          rw [update_length (eval_length h)]; omega
        by_cases hh : F.kinds h.nums = .fin
        · obtain ⟨A, hm⟩ := hupd h x hl (by omega) hh
          have hf := isNaNInf_kind'.1 (hm.finite (by omega) (Nat.zero_le _))
          have hx : F.kind x ≠ .fin := by
            intro hc; apply hk; simp only [Hist.nums, kinds, hc, hh, Kind.fin_add]
          rw [deposit_special hlen (Or.inl hx), hf]
          simp only [Hist.nums, kinds, hh, Kind.fin_add, Kind.add_fin]
        · rw [← ih] at hh
          rw [update_special hh] at hlen ⊢
          rw [deposit_special hlen (Or.inr hh), ih, Kind.add_comm]; rfl
      simp only [Hist.eval, dmdadd]
      rw [renorm_special]
      · exact key
      · show F.kind (nth (F.dmddeposit x _) 0) ≠ _; rw [key]; exact hk
  | update x h ih =>
    intro hl hN
    have ih := ih hl hN
    by_cases hk : F.kinds h.nums = .fin
    · show _ = F.kinds h.nums
      rw [hk]; exact hfinite (.update x h) hl hN hk
    · simp only [Hist.eval]
      rw [update_special (by rw [ih]; exact hk)]; exact ih
  | batch b xs h ih =>
    intro hl hN
    simp only [Hist.nums, List.length_append] at hN
    have ih := ih hl.2.2 (by omega)
    by_cases hk : F.kinds (Hist.batch b xs h).nums = .fin
    · rw [hk]; exact hfinite _ hl (by simpa [Hist.nums] using hN) hk
    · have key : F.kind (nth (F.deposits xs (F.dmdupdate fold b (h.eval F fold))).pri 0) = F.kinds (Hist.batch b xs h).nums := by
        by_cases hh : F.kinds h.nums = .fin
        · obtain ⟨A, hm⟩ := hupd h b hl.2.2 (by omega) hh
          have hx : F.kinds xs ≠ .fin := by
            intro hc; apply hk; simp only [Hist.nums, kinds_append, hc, hh, Kind.fin_add]
          rw [deposits_mixed hfold xs hm (by have := hl.2.1; omega) (fun x hxm => by
            have := hl.1 x hxm; rw [minIndex_cons]; omega) hx]
          simp only [Hist.nums, kinds_append, hh, Kind.add_fin]
        · rw [← ih] at hh
          rw [update_special hh, deposits_special xs (by rw [eval_length h]; omega) hh, ih, Kind.add_comm]
          simp only [Hist.nums, kinds_append]
      simp only [Hist.eval]
      rw [renorm_special]
      · exact key
      · rw [key]; exact hk
  | merge h₁ h₂ ih₁ ih₂ =>
    intro hl hN
    simp only [Hist.nums, List.length_append] at hN
    have ih₁ := ih₁ hl.1 (by omega)
    have ih₂ := ih₂ hl.2 (by omega)
    by_cases hk : F.kinds (Hist.merge h₁ h₂).nums = .fin
    · rw [hk]; exact hfinite _ hl (by simpa [Hist.nums] using hN) hk
    · simp only [Hist.nums, kinds_append] at hk ⊢
      rw [← ih₁, ← ih₂] at hk ⊢
      simp only [Hist.eval]
      generalize Hist.eval F fold h₁ = x at *
      generalize hy : Hist.eval F fold h₂ = y at *
      have hzf : ∀ v : Flt, isZero v = true → F.kind v = .fin := by
        intro v hv; by_contra hc; rw [kind_not_zero hc] at hv; simp at hv
      unfold dmdmadd
      by_cases zx : isZero (nth x.pri 0) = true
      · rw [if_pos zx, hzf _ zx, Kind.fin_add]
      · rw [if_neg zx]
        by_cases zy : isZero (nth y.pri 0) = true
        · rw [if_pos zy, hzf _ zy, Kind.add_fin]
        · rw [if_neg zy]
          have hnf : F.kind (nth x.pri 0) ≠ .fin ∨ F.kind (nth y.pri 0) ≠ .fin := by
            by_contra hc
            simp only [not_or, not_not] at hc
            exact hk (by rw [hc.1, hc.2]; rfl)
          have hb : (F.isNaNInf (nth x.pri 0) || F.isNaNInf (nth y.pri 0)) = true := by
            rcases hnf with h | h
            · rw [isNaNInf_kind.2 h]; rfl
            · rw [isNaNInf_kind.2 h]; simp
          rw [if_pos hb]
          dsimp only
          have hlen := eval_length (F := F) (fold := fold) h₂
          rw [hy] at hlen
          cases hp : y.pri with
          | nil => rw [hp] at hlen; simp at hlen; omega
          | cons m ms =>
            have e : nth (m :: ms) 0 = m := rfl
            rw [hp, e] at hnf
            show F.kind (F.add m (nth x.pri 0)) = (F.kind (nth x.pri 0)).add (F.kind m)
            rw [Kind.add_comm]
            rcases hnf with h | h
            · exact kind_add_right h
            · exact kind_add_left h
  | negate h ih =>
    intro hl hN
    have hN' : h.nums.length ≤ F.capacity := by simpa [Hist.nums] using hN
    have ih := ih hl hN'
    by_cases hk : F.kinds (Hist.negate h).nums = .fin
    · rw [hk]; exact hfinite _ hl hN hk
    · have hk' : F.kind (nth (h.eval F fold).pri 0) ≠ .fin := by
        rw [ih]; intro hc; apply hk; simp only [Hist.nums, kinds_fneg, hc, Kind.neg]
      simp only [Hist.eval, Hist.nums, kinds_fneg, ← ih]
      have hneg : ∀ v : Flt, F.kind (fneg v) = (F.kind v).neg := by
        intro v
        have := kinds_fneg (F := F) [v]
        simpa [kinds] using this
      unfold dmnegate
      rw [kind_not_zero hk']
      simp only [Bool.false_eq_true, if_false]
      have e : ∀ f : Nat → Flt, nth ((List.range fold).map f) 0 = f 0 := by
        intro f; obtain ⟨n, rfl⟩ : ∃ n, fold = n + 1 := ⟨fold - 1, by omega⟩
        simp [List.range_succ_eq_map, nth]
      rw [e]
      have hb : ∀ j, F.kind (F.bins j) = .fin := fun j => kind_fin.2 (C11_bins j).2.1
      unfold sub
      have h1 : F.kind (F.add (nth (h.eval F fold).pri 0) (fneg (F.bins (F.dmindex (nth (h.eval F fold).pri 0) + 0)))) =
          F.kind (nth (h.eval F fold).pri 0) := by
        rw [kind_add_left hk', hneg, hb]; simp [Kind.neg]
      have hne : ∀ a : Kind, a ≠ .fin → a.neg ≠ .fin := by intro a; cases a <;> simp [Kind.neg]
      rw [kind_add_right, hneg, h1, hb, Kind.fin_add]
      rw [hneg, h1]; exact hne _ hk'
  | renorm h ih =>
    intro hl hN
    have ih := ih hl hN
    show _ = F.kinds h.nums
    by_cases hk : F.kinds h.nums = .fin
    · rw [hk]; exact hfinite (.renorm h) hl hN hk
    · simp only [Hist.eval]
      rw [renorm_special (by rw [ih]; exact hk)]; exact ih

theorem convert_special [F.OK] {fold : Nat} {y : Binned} (h : F.kind (nth y.pri 0) ≠ .fin) :
    convert F fold y = nth y.pri 0 := by
  have hb := isNaNInf_kind.2 h
  unfold convert
  split
  · next hF => subst hF; unfold ssmconv; rw [hb]; rfl
  · unfold ddmconv; rw [hb]; rfl

/-- **C13.** A program over binned values (additions, bounded batches, merges in any tree, negations)
whose numbers include infinities or NaN converts to: NaN if there is a NaN or there are infinities of
both signs, otherwise to the infinity among its numbers. So the result does not depend on the order or
the tree. -/
theorem C13_special_values [F.OK] {fold : Nat} (hfold : 2 ≤ fold) {h : Hist} (hl : h.LegalX F)
    (hN : h.nums.length ≤ F.capacity) :
    (((∃ x ∈ h.nums, F.isNaN x = true) ∨ (F.inf false ∈ h.nums ∧ F.inf true ∈ h.nums)) →
      F.isNaN (convert F fold (h.eval F fold)) = true) ∧
    (∀ s, F.inf s ∈ h.nums → (∀ x ∈ h.nums, F.isNaN x = false) → F.inf (!s) ∉ h.nums →
      convert F fold (h.eval F fold) = F.inf s) := by
  have hk := hist_kind (F := F) hfold h hl hN
  constructor
  · intro hnan
    have := kinds_nan.2 hnan
    rw [this] at hk
    rw [convert_special (by rw [hk]; simp)]
    exact kind_nan.1 hk
  · intro s hs hnn hopp
    have hne : F.kinds h.nums ≠ .fin := by
      intro hc; have := kinds_fin.1 hc _ hs; unfold Finite Fmt.inf at this; simp at this
    have hnn' : F.kinds h.nums ≠ .nan := by
      intro hc
      rcases kinds_nan.1 hc with ⟨x, hx, hn⟩ | ⟨a, b⟩
      · rw [hnn x hx] at hn; simp at hn
      · cases s
        · exact hopp b
        · exact hopp a
    cases hkk : F.kinds h.nums with
    | fin => exact absurd hkk hne
    | nan => exact absurd hkk hnn'
    | inf t =>
      have ht : t = s := by
        by_contra hc
        have hmem : ∀ (xs : List Flt) u, F.kinds xs = .inf u → F.inf u ∈ xs := by
          intro xs
          induction xs with
          | nil => intro u h; simp [kinds] at h
          | cons x xs ih =>
            intro u h
            simp only [kinds] at h
            cases hx : F.kind x with
            | nan => rw [hx] at h; simp [Kind.add] at h
            | fin => rw [hx, Kind.fin_add] at h; exact List.mem_cons_of_mem _ (ih u h)
            | inf v =>
              have : v = u := by
                rw [hx] at h
                cases hxs : F.kinds xs with
                | nan => rw [hxs] at h; simp [Kind.add] at h
                | fin => rw [hxs] at h; simpa [Kind.add] using h
                | inf w =>
                  rw [hxs] at h
                  by_cases hvw : v = w
                  · simpa [Kind.add, hvw] using h
                  · simp [Kind.add, hvw] at h
              subst this
              rw [kind_inf.1 hx]; exact List.mem_cons_self
        have := hmem _ _ hkk
        have e : t = !s := by cases t <;> cases s <;> simp_all
        rw [e] at this; exact hopp this
      rw [hkk, ht] at hk
      rw [convert_special (by rw [hk]; simp)]
      exact kind_inf.1 hk

/-- **C13** (elementwise sums). Two orders of the same numbers agree: both NaN, or bitwise equal. -/
theorem C13_order_independent [F.OK] {fold : Nat} (hfold : 2 ≤ fold) {xs ys : List Flt} (hp : xs.Perm ys)
    (hN : xs.length ≤ F.capacity) :
    (F.isNaN (convert F fold (F.sumSeq fold xs (dmsetzero fold))) = true ∧
     F.isNaN (convert F fold (F.sumSeq fold ys (dmsetzero fold))) = true) ∨
    convert F fold (F.sumSeq fold xs (dmsetzero fold)) = convert F fold (F.sumSeq fold ys (dmsetzero fold)) := by
  have hlx : ∀ xs : List Flt, (Hist.ofList xs .zero).LegalX F := by
    intro xs
    unfold Hist.ofList
    have : ∀ h : Hist, h.LegalX F → (xs.foldl (fun h x => Hist.add x h) h).LegalX F := by
      induction xs with
      | nil => intro h hl; exact hl
      | cons x xs ih => intro h hl; exact ih _ hl
    exact this _ trivial
  have hk : ∀ xs : List Flt, xs.length ≤ F.capacity →
      F.kind (nth (F.sumSeq fold xs (dmsetzero fold)).pri 0) = F.kinds xs := by
    intro xs hN
    have := hist_kind (F := F) hfold _ (hlx xs) (by rw [ofList_nums]; simpa [Hist.nums] using hN)
    rw [ofList_eval, ofList_nums] at this
    simp only [Hist.nums, List.append_nil] at this
    rw [kinds_perm (List.reverse_perm xs)] at this
    exact this
  have k1 := hk xs hN
  have k2 := hk ys (by rw [← hp.length_eq]; exact hN)
  rw [← kinds_perm hp] at k2
  cases hh : F.kinds xs with
  | fin => right; exact (C01_order_independent hfold hp (kinds_fin.1 hh) hN).2
  | nan =>
    left
    rw [hh] at k1 k2
    rw [convert_special (by rw [k1]; simp), convert_special (by rw [k2]; simp)]
    exact ⟨kind_nan.1 k1, kind_nan.1 k2⟩
  | inf s =>
    right
    rw [hh] at k1 k2
    rw [convert_special (by rw [k1]; simp), convert_special (by rw [k2]; simp), kind_inf.1 k1, kind_inf.1 k2]

example : (Hist.merge (.add (f64.inf true) (.add (f64.pow2 1023) .zero)) (.add (f64.pow2 1023) .zero)).LegalX f64 ∧
    f64.inf true ∈ (Hist.merge (.add (f64.inf true) (.add (f64.pow2 1023) .zero)) (.add (f64.pow2 1023) .zero)).nums := by
  exact ⟨⟨trivial, trivial⟩, by simp [Hist.nums]⟩

end Repro
