import Verif.ZInfLemmas
import Verif.PropsZDot
/-!
# Infinities and NaN in the block loop of the complex sum and dot products

Everything is stated for the imaginary part, whatever happens in the real part; the real part follows by
exchanging the two (`zvecLoop_swap`).
-/

namespace Repro
open Fmt
variable {F : Fmt} {α : Type}

/-- The kind found is the kind wanted, or NaN; under `ex` it is the kind wanted. -/
def Loose (ex : Prop) (K k : Kind) : Prop := (k = K ∨ k = .nan) ∧ (ex → k = K)

theorem Loose.refl {ex : Prop} (K : Kind) : Loose ex K K := ⟨Or.inl rfl, fun _ => rfl⟩

/-- The kind of the numbers that one element contributes to a part. -/
def elemKind (F : Fmt) (e : Nat) (f : α → Nat → Flt) (a : α) : Kind := F.kinds ((List.range e).map (f a))

theorem kinds_partNums_cons (e : Nat) (f : α → Nat → Flt) (a : α) (es : List α) :
    F.kinds (partNums e f (a :: es)) = (elemKind F e f a).add (F.kinds (partNums e f es)) := by
  unfold partNums elemKind
  rw [List.flatMap_cons, kinds_append]

/-- The terms of the exceptional loop have the right kinds together: if the element has a special kind. -/
def TermOK (F : Fmt) (O : ZOp α) : Prop := ∀ a, elemKind F O.e O.fI a ≠ .fin → F.kind (O.tI a) = elemKind F O.e O.fI a

/-- The terms have the right kinds, one by one. -/
def TermEx (F : Fmt) (O : ZOp α) (es : List α) : Prop := ∀ a ∈ es, F.kind (O.tI a) = elemKind F O.e O.fI a

theorem kinds_terms [F.OK] {O : ZOp α} (ht : TermOK F O) : ∀ (b : List α), F.kinds (partNums O.e O.fI b) ≠ .fin →
    F.kinds (b.map O.tI) = F.kinds (partNums O.e O.fI b) ∨ F.kinds (b.map O.tI) = .nan := by
  intro b
  induction b with
  | nil => intro h; simp [partNums, kinds] at h
  | cons a b ih =>
    intro h
    rw [kinds_partNums_cons] at h ⊢
    simp only [List.map_cons, kinds]
    by_cases ha : elemKind F O.e O.fI a = .fin
    · rw [ha, Kind.fin_add] at h ⊢
      rcases ih h with h1 | h1
      · rw [h1]
        cases hk : F.kind (O.tI a) with
        | fin => left; exact Kind.fin_add _
        | nan => right; rfl
        | inf s =>
          cases h2 : F.kinds (partNums O.e O.fI b) with
          | fin => exact absurd h2 h
          | nan => right; rfl
          | inf t => cases s <;> cases t <;> simp [Kind.add]
      · right; rw [h1]; cases F.kind (O.tI a) <;> rfl
    · rw [ht a ha]
      by_cases hb : F.kinds (partNums O.e O.fI b) = .fin
      · rw [hb, Kind.add_fin]
        cases hk : elemKind F O.e O.fI a with
        | fin => exact absurd hk ha
        | nan => right; rfl
        | inf s =>
          cases h2 : F.kinds (b.map O.tI) with
          | fin => left; rfl
          | nan => right; rfl
          | inf t => cases s <;> cases t <;> simp [Kind.add]
      · rcases ih hb with h1 | h1
        · rw [h1]; left; rfl
        · right; rw [h1]; cases elemKind F O.e O.fI a <;> rfl

/-- From a special value, the terms add the right kind or NaN. -/
theorem kinds_terms_add [F.OK] {O : ZOp α} (ht : TermOK F O) (b : List α) {k : Kind} (hk : k ≠ .fin) :
    k.add (F.kinds (b.map O.tI)) = k.add (F.kinds (partNums O.e O.fI b)) ∨ k.add (F.kinds (b.map O.tI)) = .nan := by
  by_cases hb : F.kinds (partNums O.e O.fI b) = .fin
  · rw [hb, Kind.add_fin]
    cases k with
    | fin => exact absurd rfl hk
    | nan => left; rfl
    | inf s =>
      cases F.kinds (b.map O.tI) with
      | fin => left; rfl
      | nan => right; rfl
      | inf t => cases s <;> cases t <;> simp [Kind.add]
  · rcases kinds_terms ht b hb with h | h
    · left; rw [h]
    · right; rw [h]; cases k <;> rfl

theorem kinds_terms_ex {O : ZOp α} : ∀ {b : List α}, TermEx F O b → F.kinds (b.map O.tI) = F.kinds (partNums O.e O.fI b) := by
  intro b
  induction b with
  | nil => intro _; rfl
  | cons a b ih =>
    intro h
    rw [kinds_partNums_cons, List.map_cons]
    simp only [kinds]
    rw [h a List.mem_cons_self, ih (fun c hc => h c (List.mem_cons_of_mem _ hc))]

/-- The rest of a round of `zvecLoop`, once the exceptional loops have run. -/
def zrest (F : Fmt) (T : Tune) (fold : Nat) (O : ZOp α) (fuel : Nat) (es : List α) (deposits : Nat) (a0 a1 : Flt) (y0 y1 : Binned) : Binned × Binned :=
  if F.isNaN (nth y0.pri 0) && F.isNaN (nth y1.pri 0) then (y0, y1)
  else if F.isInf (nth y0.pri 0) && F.isInf (nth y1.pri 0) then F.zvecLoop T fold O fuel (es.drop T.nb) deposits (y0, y1)
  else
    let b := es.take T.nb
    let a0 := if F.isNaNInf (nth y0.pri 0) then nth y0.pri 0 else a0
    let a1 := if F.isNaNInf (nth y1.pri 0) then nth y1.pri 0 else a1
    let over := deposits + b.length > F.endurance / O.e
    let y0 := if over then F.dmrenorm y0 else y0
    let y1 := if over then F.dmrenorm y1 else y1
    let deposits := if over then 0 else deposits
    let y0 := F.dmdupdate fold a0 y0
    let y1 := F.dmdupdate fold a1 y1
    let z0 := F.dmindex0 (nth y0.pri 0)
    let z1 := F.dmindex0 (nth y1.pri 0)
    let w0 : Binned := ⟨F.kernelZ T (zmode z0 z1) O.e O.fR O.zfill b y0.pri, y0.car⟩
    let w1 : Binned := ⟨F.kernelZ T (zmode z1 z0) O.e O.fI O.zfill b y1.pri, y1.car⟩
    F.zvecLoop T fold O fuel (es.drop T.nb) (deposits + b.length)
      (if F.isInf a0 then setHead a0 w0 else w0, if F.isInf a1 then setHead a1 w1 else w1)

theorem zvecLoop_succ {T : Tune} {fold : Nat} {O : ZOp α} {fuel : Nat} {es : List α} (h : es ≠ []) {deposits : Nat} {y : Binned × Binned} :
    F.zvecLoop T fold O (fuel + 1) es deposits y =
      zrest F T fold O fuel es deposits (F.amaxZ T O.e O.fR O.zfill (es.take T.nb)) (F.amaxZ T O.e O.fI O.zfill (es.take T.nb))
        (if F.isInf (F.amaxZ T O.e O.fR O.zfill (es.take T.nb)) || F.isInf (nth y.1.pri 0) then F.accum0 ((es.take T.nb).map O.tR) y.1 else y.1)
        (if F.isInf (F.amaxZ T O.e O.fI O.zfill (es.take T.nb)) || F.isInf (nth y.2.pri 0) then F.accum0 ((es.take T.nb).map O.tI) y.2 else y.2) := by
  rw [zvecLoop, if_neg (by simpa using h)]; rfl

theorem setHead_nth {v : Flt} {y : Binned} (h : 1 ≤ y.pri.length) : nth (setHead v y).pri 0 = v ∧ (setHead v y).pri.length = y.pri.length := by
  unfold setHead
  cases hp : y.pri with
  | nil => rw [hp] at h; simp at h
  | cons m ms => exact ⟨rfl, rfl⟩

theorem zrest_special [F.OK] {T : Tune} (hT : T.OK F) {O : ZOp α} (hO : O.OK) {fold fuel : Nat} {es : List α} {ex : Prop} {dep : Nat} {a0 a1 : Flt} {y0 y1 : Binned}
    (hrec : ∀ (dep : Nat) (y0 y1 : Binned), 1 ≤ y1.pri.length → F.kind (nth y1.pri 0) ≠ .fin →
      Loose ex ((F.kind (nth y1.pri 0)).add (F.kinds (partNums O.e O.fI (es.drop T.nb)))) (F.kind (nth (F.zvecLoop T fold O fuel (es.drop T.nb) dep (y0, y1)).2.pri 0)))
    (hl : 1 ≤ y1.pri.length) (hk : F.kind (nth y1.pri 0) ≠ .fin) :
    Loose ex ((F.kind (nth y1.pri 0)).add (F.kinds (partNums O.e O.fI (es.drop T.nb)))) (F.kind (nth (zrest F T fold O fuel es dep a0 a1 y0 y1).2.pri 0)) := by
  unfold zrest
  cases hc : F.kind (nth y1.pri 0) with
  | fin => exact absurd hc hk
  | nan =>
    have hn := nan_of_kind hc
    by_cases h0 : F.isNaN (nth y0.pri 0) = true
    · rw [h0, hn]
      simp only [Bool.and_self, if_true]
      rw [hc]; exact Loose.refl _
    · have hi : F.isInf (nth y1.pri 0) = false := by
        unfold isNaN at hn; unfold isInf; simp at hn ⊢; omega
      rw [show F.isNaN (nth y0.pri 0) = false by simpa using h0, hi, Bool.and_false, Bool.false_and]
      have hni := isNaNInf_kind.2 hk
      simp only [Bool.false_eq_true, if_false, hni, if_true, hi]
      have hre : (if dep + (es.take T.nb).length > F.endurance / O.e then F.dmrenorm y1 else y1) = y1 := by
        split
        · exact renorm_special hk
        · rfl
      rw [hre, update_special hk]
      have hkn : ∀ m, F.isNaN (nth (F.kernelZ T m O.e O.fI O.zfill (es.take T.nb) y1.pri) 0) = true := fun m =>
        kernelZ_nan hT hO.e1 hl (Or.inr hn)
      have := hrec ((if dep + (es.take T.nb).length > F.endurance / O.e then 0 else dep) + (es.take T.nb).length)
      refine Eq.mp (congrArg (fun k => Loose ex k _) ?_) (this _ ⟨F.kernelZ T _ O.e O.fI O.zfill (es.take T.nb) y1.pri, y1.car⟩ (by dsimp only; rw [kernelZ_len]; exact hl) (by dsimp only; rw [kind_nan.2 (hkn _)]; simp))
      dsimp only
      rw [kind_nan.2 (hkn _)]
  | inf s =>
    obtain ⟨hn, hi⟩ := inf_of_kind hc
    rw [hn, Bool.and_false, hi, Bool.and_true]
    simp only [Bool.false_eq_true, if_false]
    by_cases h0 : F.isInf (nth y0.pri 0) = true
    · rw [if_pos h0, ← hc]; exact hrec dep y0 y1 hl hk
    · rw [if_neg h0]
      have hni := isNaNInf_kind.2 hk
      simp only [hni, if_true, hi]
      have hre : (if dep + (es.take T.nb).length > F.endurance / O.e then F.dmrenorm y1 else y1) = y1 := by
        split
        · exact renorm_special hk
        · rfl
      rw [hre, update_special hk]
      have := hrec ((if dep + (es.take T.nb).length > F.endurance / O.e then 0 else dep) + (es.take T.nb).length)
      have hs := fun m => setHead_nth (v := nth y1.pri 0) (y := ⟨F.kernelZ T m O.e O.fI O.zfill (es.take T.nb) y1.pri, y1.car⟩) (by dsimp only; rw [kernelZ_len]; exact hl)
      refine Eq.mp (congrArg (fun k => Loose ex k _) ?_) (this _ (setHead (nth y1.pri 0) ⟨F.kernelZ T _ O.e O.fI O.zfill (es.take T.nb) y1.pri, y1.car⟩)
        (by rw [(hs _).2]; dsimp only; rw [kernelZ_len]; exact hl) (by rw [(hs _).1]; exact hk))
      rw [(hs _).1, hc]

theorem Loose.trans {ex : Prop} {K k r k' : Kind} (h : Loose ex (k.add k') r) (hk : k = K ∨ k = .nan) (he : ex → k = K) : Loose ex (K.add k') r := by
  refine ⟨?_, fun e => by rw [← he e]; exact h.2 e⟩
  rcases hk with hk | hk
  · rw [← hk]; exact h.1
  · right
    rcases h.1 with h1 | h1
    · rw [h1, hk]; rfl
    · exact h1

/-- Once the part holds an infinity or NaN the loop adds the kinds. -/
theorem zvecLoop_special [F.OK] {T : Tune} (hT : T.OK F) {O : ZOp α} (hO : O.OK) (ht : TermOK F O) {fold : Nat} {ex : Prop} :
    ∀ (fuel : Nat) (es : List α) {dep : Nat} {y0 y1 : Binned}, es.length ≤ fuel → (ex → TermEx F O es) → 1 ≤ y1.pri.length → F.kind (nth y1.pri 0) ≠ .fin →
    Loose ex ((F.kind (nth y1.pri 0)).add (F.kinds (partNums O.e O.fI es))) (F.kind (nth (F.zvecLoop T fold O fuel es dep (y0, y1)).2.pri 0)) := by
  intro fuel
  induction fuel with
  | zero =>
    intro es dep y0 y1 hlen hx hl hk
    have h0 : es = [] := List.eq_nil_of_length_eq_zero (by omega)
    subst h0
    unfold zvecLoop
    show Loose _ _ (F.kind (nth (F.dmrenorm y1).pri 0))
    rw [renorm_special hk]
    simp only [partNums, List.flatMap_nil, kinds, Kind.add_fin]
    exact Loose.refl _
  | succ fuel ih =>
    intro es dep y0 y1 hlen hx hl hk
    by_cases h0 : es = []
    · subst h0
      unfold zvecLoop
      rw [if_pos (show ([] : List α).isEmpty = true from rfl)]
      show Loose _ _ (F.kind (nth (F.dmrenorm y1).pri 0))
      rw [renorm_special hk]
      simp only [partNums, List.flatMap_nil, kinds, Kind.add_fin]
      exact Loose.refl _
    · rw [zvecLoop_succ h0]
      have hpos : 1 ≤ es.length := List.length_pos_iff.2 h0
      have hnb1 := hT.nb1
      have hrl : (es.drop T.nb).length = es.length - T.nb := List.length_drop
      have hxb : ex → TermEx F O (es.take T.nb) := fun e a ha => hx e a (List.mem_of_mem_take ha)
      have hxr : ex → TermEx F O (es.drop T.nb) := fun e a ha => hx e a (List.mem_of_mem_drop ha)
      have hkv : F.kinds (partNums O.e O.fI es) = (F.kinds (partNums O.e O.fI (es.take T.nb))).add (F.kinds (partNums O.e O.fI (es.drop T.nb))) := by
        rw [← kinds_append, partNums_take_drop]
      have hrec : ∀ (dep : Nat) (y0 y1 : Binned), 1 ≤ y1.pri.length → F.kind (nth y1.pri 0) ≠ .fin →
          Loose ex ((F.kind (nth y1.pri 0)).add (F.kinds (partNums O.e O.fI (es.drop T.nb)))) (F.kind (nth (F.zvecLoop T fold O fuel (es.drop T.nb) dep (y0, y1)).2.pri 0)) :=
        fun dep y0 y1 hl hk => ih _ (by omega) hxr hl hk
      rw [hkv, ← Kind.add_assoc]
      dsimp only
      have hacc : F.kind (nth (F.accum0 ((es.take T.nb).map O.tI) y1).pri 0) = (F.kind (nth y1.pri 0)).add (F.kinds ((es.take T.nb).map O.tI)) := by
        rw [accum0_pri0 _ hl, foldl_add_special _ hk]
      generalize (if (F.isInf (F.amaxZ T O.e O.fR O.zfill (es.take T.nb)) || F.isInf (nth y0.pri 0)) = true then F.accum0 ((es.take T.nb).map O.tR) y0 else y0) = w0
      by_cases hni : (F.isInf (F.amaxZ T O.e O.fI O.zfill (es.take T.nb)) || F.isInf (nth y1.pri 0)) = true
      · rw [if_pos hni]
        refine (zrest_special hT hO hrec (by rw [accum0_length]; exact hl) (by rw [hacc]; exact Kind.add_ne_fin hk)).trans ?_ ?_
        · rw [hacc]; exact kinds_terms_add ht _ hk
        · intro e; rw [hacc, kinds_terms_ex (hxb e)]
      · rw [if_neg hni]
        -- not infinite: NaN
        have hn : F.kind (nth y1.pri 0) = .nan := by
          cases hc : F.kind (nth y1.pri 0) with
          | fin => exact absurd hc hk
          | nan => rfl
          | inf s => rw [(inf_of_kind hc).2, Bool.or_true] at hni; simp at hni
        refine (zrest_special hT hO hrec hl hk).trans ?_ ?_
        · left; rw [hn]; rfl
        · intro _; rw [hn]; rfl

/-! ### from a finite state -/

theorem amaxZ_inf [F.OK] {T : Tune} (h : T.OK F) {e : Nat} {f : α → Nat → Flt} {z : α} (hz : ∀ q, (f z q).mag = 0) {es : List α}
    (hk : F.kinds (partNums e f es) ≠ .fin) (hn : ¬ ∃ x ∈ partNums e f es, F.isNaN x = true) : F.isInf (F.amaxZ T e f z es) = true := by
  have hnn : ∀ x ∈ partNums e f es, F.isNaN x = false := by
    intro x hx
    by_contra hc
    exact hn ⟨x, hx, by simpa using hc⟩
  rw [amaxZ_eq h hz hnn]
  have : ∃ x ∈ partNums e f es, ¬ F.Finite x := by
    by_contra hc
    push_neg at hc
    exact hk (kinds_fin.2 hc)
  obtain ⟨x, hx, hf⟩ := this
  have h1 := le_maxMag hx
  have h2 : maxMag (partNums e f es) ≤ F.infMag := maxMag_le (fun z hz => by have := hnn z hz; unfold isNaN at this; simpa using this)
  unfold Finite at hf
  unfold isInf
  simp; omega

/-- Native addition of terms of at most `w` units, `w` being the number of products in a term, does not overflow
a primary of index at least 1 within a block. -/
theorem foldl_add_safe' [F.OK] {w : Nat} : ∀ (b : List Flt) (n : Nat) {m : Flt}, n + w * b.length ≤ F.endurance → F.Finite m →
    (F.toInt m).natAbs ≤ (2 ^ (F.p - F.W + 1) + n) * 2 ^ (F.uexp 1 + F.W - 1) →
    (∀ x ∈ b, F.Finite x → F.val x.mag ≤ w * 2 ^ (F.uexp 1 + F.W - 1)) → F.kind (b.foldl F.add m) = F.kinds b := by
  have ⟨hp, hW, hWp, hpW, he, he1, hb, het, _⟩ := F.facts
  have hb9 := F.bfacts
  intro b
  induction b with
  | nil => intro n m _ hm _ _; simp only [kinds, List.foldl_nil]; exact kind_fin.2 hm
  | cons x b ih =>
    intro n m hn hm hbd hx
    rw [List.foldl_cons]
    rw [List.length_cons, Nat.mul_add, Nat.mul_one] at hn
    simp only [kinds]
    by_cases hxf : F.kind x = .fin
    · have hxF := kind_fin.1 hxf
      rw [hxf, Kind.fin_add]
      have hmax1 : 1 ≤ F.maxIndex := by rcases (inferInstance : F.OK).isDoubleOrFloat with rfl | rfl <;> decide
      have hu1 : F.uexp 1 = F.eta + F.maxExp + 1 - F.W - F.W := by
        unfold uexp; rw [Nat.min_eq_left hmax1, Nat.mul_one]
      have hxb := hx x List.mem_cons_self hxF
      have hE : F.endurance = 2 ^ (F.p - F.W - 2) := rfl
      have hlt : 2 ^ (F.p - F.W - 2) < 2 ^ (F.p - F.W + 1) := Nat.pow_lt_pow_right (by omega) (by omega)
      have h2 : 2 ^ (F.p - F.W + 2) = 2 * 2 ^ (F.p - F.W + 1) := by rw [← Nat.pow_succ']
      have hmant : 2 ^ (F.p - F.W + 1) + (n + w) < 2 ^ (F.p - F.W + 2) := by omega
      have hsum : (F.toInt m + F.toInt x).natAbs ≤ (2 ^ (F.p - F.W + 1) + (n + w)) * 2 ^ (F.uexp 1 + F.W - 1) := by
        have h3 := toInt_natAbs (F := F) x
        rw [← Nat.add_assoc, Nat.add_mul]; omega
      have hadd := add_le (F := F) hm hxF (m := 2 ^ (F.p - F.W + 1) + (n + w)) (e := F.uexp 1 + F.W - 1)
        (Nat.lt_of_lt_of_le hmant (Nat.pow_le_pow_right (by omega) (by omega)))
        (by
          have h4 : (2 ^ (F.p - F.W + 1) + (n + w)) * 2 ^ (F.uexp 1 + F.W - 1) < 2 ^ (F.p - F.W + 2) * 2 ^ (F.uexp 1 + F.W - 1) :=
            Nat.mul_lt_mul_of_pos_right hmant (pow_pos' _)
          rw [← Nat.pow_add] at h4
          refine Nat.lt_of_lt_of_le h4 (Nat.pow_le_pow_right (by omega) ?_)
          rw [hu1]
          have : F.p + 2 ≤ 2 * F.W := by
            rcases (inferInstance : F.OK).isDoubleOrFloat with rfl | rfl <;> decide
          omega) hsum
      exact ih (n + w) (by omega) hadd.1 hadd.2 (fun z hz => hx z (List.mem_cons_of_mem _ hz))
    · have h1 := kind_add_right (F := F) (x := m) hxf
      rw [kind_fin.2 hm, Kind.fin_add] at h1
      rw [foldl_add_special b (by rw [h1]; exact hxf), h1]

/-- What `safe` promises of the remaining elements: their finite numbers have index at least 1, and the terms of the
exceptional loop neither overflow nor are larger than their number of units. -/
structure ZSafe (F : Fmt) (O : ZOp α) (es : List α) : Prop where
  ex : TermEx F O es
  term : ∀ a ∈ es, F.Finite (O.tI a) → F.val (O.tI a).mag ≤ O.e * 2 ^ (F.uexp 1 + F.W - 1)
  num : ∀ x ∈ partNums O.e O.fI es, F.Finite x → 1 ≤ F.dindex x

theorem ZSafe.take {O : ZOp α} {es : List α} (n : Nat) (h : ZSafe F O es) : ZSafe F O (es.take n) :=
  ⟨fun a ha => h.ex a (List.mem_of_mem_take ha), fun a ha => h.term a (List.mem_of_mem_take ha),
   fun x hx => h.num x (by rw [← partNums_take_drop n]; exact List.mem_append_left _ hx)⟩

theorem ZSafe.drop {O : ZOp α} {es : List α} (n : Nat) (h : ZSafe F O es) : ZSafe F O (es.drop n) :=
  ⟨fun a ha => h.ex a (List.mem_of_mem_drop ha), fun a ha => h.term a (List.mem_of_mem_drop ha),
   fun x hx => h.num x (by rw [← partNums_take_drop n]; exact List.mem_append_right _ hx)⟩

theorem zvecLoop_mixed [F.OK] {T : Tune} (hT : T.OK F) {O : ZOp α} (hO : O.OK) (ht : TermOK F O) (hnb : O.e * T.nb ≤ F.endurance) {fold : Nat} (hfold : 2 ≤ fold) {safe : Prop} :
    ∀ (fuel : Nat) (es : List α) {dep N : Nat} {y0 y1 : Binned}, es.length ≤ fuel → LoopState' F fold (O.e * dep) N y1 safe → dep ≤ F.endurance / O.e →
    N + (partNums O.e O.fI es).length ≤ F.capacity → (safe → ZSafe F O es) → F.kinds (partNums O.e O.fI es) ≠ .fin →
    Loose safe (F.kinds (partNums O.e O.fI es)) (F.kind (nth (F.zvecLoop T fold O fuel es dep (y0, y1)).2.pri 0)) := by
  have he1 := hO.e1
  have hediv : ∀ {m : Nat}, m ≤ F.endurance / O.e → O.e * m ≤ F.endurance := by
    intro m hm
    exact Nat.le_trans (Nat.mul_le_mul_left _ hm) (Nat.mul_div_le _ _)
  intro fuel
  induction fuel with
  | zero =>
    intro es dep N y0 y1 hlen _ _ _ _ hk
    have h0 : es = [] := List.eq_nil_of_length_eq_zero (by omega)
    subst h0
    exact absurd rfl hk
  | succ fuel ih =>
    intro es dep N y0 y1 hlen hst hdep hN hsafe hk
    have h0 : es ≠ [] := by intro hc; subst hc; exact hk rfl
    rw [zvecLoop_succ h0]
    have hde := hediv hdep
    obtain ⟨hl, hfin, hbnd⟩ := state_pri0 hfold hst hde
    have hpos : 1 ≤ es.length := List.length_pos_iff.2 h0
    have hbl : (es.take T.nb).length = min T.nb es.length := List.length_take
    have hnb1 := hT.nb1
    have hrl : (es.drop T.nb).length = es.length - T.nb := List.length_drop
    have hsplit := partNums_take_drop T.nb O.e O.fI es
    have hl1 := partNums_length O.e O.fI (es.take T.nb)
    have hl2 := partNums_length O.e O.fI (es.drop T.nb)
    have hl0 := partNums_length O.e O.fI es
    have hlsum : (partNums O.e O.fI (es.take T.nb)).length + (partNums O.e O.fI (es.drop T.nb)).length = (partNums O.e O.fI es).length := by
      rw [← List.length_append, hsplit]
    have hbne : partNums O.e O.fI (es.take T.nb) ≠ [] := by
      intro hc; rw [hc] at hl1
      have : 1 ≤ O.e * (es.take T.nb).length := Nat.mul_pos he1 (by omega)
      simp only [List.length_nil] at hl1; omega
    have hble : O.e * (es.take T.nb).length ≤ F.endurance := Nat.le_trans (Nat.mul_le_mul_left _ (by omega)) hnb
    have hkv : F.kinds (partNums O.e O.fI es) = (F.kinds (partNums O.e O.fI (es.take T.nb))).add (F.kinds (partNums O.e O.fI (es.drop T.nb))) := by
      rw [← kinds_append, hsplit]
    have hyk := kind_fin.2 hfin
    have hyn := finite_not_nan hfin
    have hyi := finite_not_inf hfin
    have hni := isNaNInf_false hfin
    have hrec : ∀ (dep : Nat) (y0 y1 : Binned), 1 ≤ y1.pri.length → F.kind (nth y1.pri 0) ≠ .fin →
        Loose safe ((F.kind (nth y1.pri 0)).add (F.kinds (partNums O.e O.fI (es.drop T.nb)))) (F.kind (nth (F.zvecLoop T fold O fuel (es.drop T.nb) dep (y0, y1)).2.pri 0)) :=
      fun dep y0 y1 hl hk => zvecLoop_special hT hO ht fuel _ (by omega) (fun s => ((hsafe s).drop T.nb).ex) hl hk
    dsimp only
    generalize (if (F.isInf (F.amaxZ T O.e O.fR O.zfill (es.take T.nb)) || F.isInf (nth y0.pri 0)) = true then F.accum0 ((es.take T.nb).map O.tR) y0 else y0) = w0
    generalize F.amaxZ T O.e O.fR O.zfill (es.take T.nb) = a0
    by_cases hkb : F.kinds (partNums O.e O.fI (es.take T.nb)) = .fin
    · -- a finite block
      have hbf := kinds_fin.1 hkb
      obtain ⟨ha1, ha2⟩ := amaxZ_block hT hO.zI hbne hbf
      generalize hA1 : F.amaxZ T O.e O.fI O.zfill (es.take T.nb) = a1 at ha1 ha2 ⊢
      have hmi : safe → 1 ≤ F.minIndex (partNums O.e O.fI (es.take T.nb)) := by
        intro s
        obtain ⟨x, hx, he⟩ := maxMag_mem hbne
        have h1 := ((hsafe s).take T.nb).num x hx (hbf x hx)
        have h2 := dindex_maxMag hbne hbf
        have h3 : F.dindex ⟨false, maxMag (partNums O.e O.fI (es.take T.nb))⟩ = F.dindex x := dindex_mag _ _ he.symm
        omega
      have hk' : F.kinds (partNums O.e O.fI (es.drop T.nb)) ≠ .fin := by rw [hkv, hkb, Kind.fin_add] at hk; exact hk
      rw [hkv, hkb, Kind.fin_add]
      unfold zrest
      rw [finite_not_inf ha1, hyi]
      simp only [Bool.or_self, Bool.false_eq_true, if_false, hyn, hyi, Bool.and_false, hni, finite_not_inf ha1]
      have go : ∀ {d' dep' k : Nat} {A : Nat → Int} {u : Binned} (z : Bool) (v : Binned), F.Mid fold d' N k A u → d' ≤ O.e * dep' →
          k ≤ F.maxIndex → (safe → 1 ≤ k) → dep' + (es.take T.nb).length ≤ F.endurance / O.e → F.dindex a1 = F.minIndex (partNums O.e O.fI (es.take T.nb)) →
          k ≤ F.minIndex (partNums O.e O.fI (es.take T.nb)) →
          Loose safe (F.kinds (partNums O.e O.fI (es.drop T.nb))) (F.kind (nth (F.zvecLoop T fold O fuel (es.drop T.nb) (dep' + (es.take T.nb).length) (v,
            ⟨F.kernelZ T (zmode (F.dmindex0 (nth u.pri 0)) z) O.e O.fI O.zfill (es.take T.nb) u.pri, u.car⟩)).2.pri 0)) := by
        intro d' dep' k A u z v hm hd' hkm hks hle _ hkb'
        have hle' := hediv hle
        rw [Nat.mul_add] at hle'
        rw [Mid_index0 hfold hm (by omega)]
        have hm' := Mid_kernelZ hT he1 hfold hm (zmode_ok z) hO.zI (es := es.take T.nb) (by omega) (fun x hx' => ⟨hbf x hx', by have := minIndex_le_mem (F := F) hx'; omega⟩)
        exact ih (es.drop T.nb) (N := N + (partNums O.e O.fI (es.take T.nb)).length) (by omega)
          (Or.inr ⟨_, _, _, hm', by rw [Nat.mul_add]; omega, hks⟩) hle (by omega) (fun s => (hsafe s).drop T.nb) hk'
      rcases hst with ⟨hz, hd0⟩ | ⟨d, k, A, hm, hd, hks⟩
      · have hdep0 : dep = 0 := by
          rcases Nat.mul_eq_zero.1 hd0 with h | h
          · omega
          · exact h
        subst hdep0
        have hov : ¬ (0 + (es.take T.nb).length > F.endurance / O.e) := by
          rw [Nat.not_lt, Nat.zero_add, Nat.le_div_iff_mul_le (by omega), Nat.mul_comm]; exact hble
        simp only [if_neg hov]
        subst hz
        have hu := (mid_empty (F := F) (fold := fold) (x := a1)).mono (Nat.le_refl 0) (Nat.zero_le N)
        have hmk : F.dindex a1 ≤ F.maxIndex := dindex_le_max _
        exact go _ _ hu (Nat.zero_le _) hmk (fun s => by have := hmi s; omega) (by omega) ha2 (by omega)
      · have hmk : k ≤ F.maxIndex := by obtain ⟨_, _, _, _, _, _, _, h5, _⟩ := hm; exact h5
        by_cases hov : dep + (es.take T.nb).length > F.endurance / O.e
        · simp only [if_pos hov]
          have hcn := hm.renorm (by omega) (by omega) (by omega)
          have hA : ∀ j, (A j).natAbs ≤ N * 2 ^ (F.W - 1) := by obtain ⟨_, _, _, _, _, _, _, _, h6⟩ := hm; exact h6
          have hm' : F.Mid fold 0 N k A (F.dmrenorm y1) := by rw [hcn]; exact mid_canon hmk hm.zeros hA
          have hu := hm'.update (x := a1) (by omega) (by omega)
          refine go _ _ hu (Nat.zero_le _) (by omega) (fun s => by have := hmi s; have := hks s; omega) ?_ ha2 (by omega)
          rw [Nat.zero_add, Nat.le_div_iff_mul_le (by omega), Nat.mul_comm]; exact hble
        · simp only [if_neg hov]
          have hu := hm.update (x := a1) (by omega) (by omega)
          exact go _ _ hu hd (by omega) (fun s => by have := hmi s; have := hks s; omega) (by omega) ha2 (by omega)
    · -- a block with special values
      by_cases hai : F.isInf (F.amaxZ T O.e O.fI O.zfill (es.take T.nb)) = true
      · rw [hai]
        simp only [Bool.true_or, if_true]
        have hacc := accum0_pri0 (F := F) ((es.take T.nb).map O.tI) (y := y1) (by omega)
        have hterm := kinds_terms ht (es.take T.nb) hkb
        have hmix := foldl_add_mixed (F := F) ((es.take T.nb).map O.tI) (m := nth y1.pri 0) (by rcases hterm with h | h <;> rw [h]; exacts [hkb, by simp])
        rw [hyk, Kind.fin_add, ← hacc] at hmix
        have h1 : F.kind (nth (F.accum0 ((es.take T.nb).map O.tI) y1).pri 0) = F.kinds (partNums O.e O.fI (es.take T.nb)) ∨
            F.kind (nth (F.accum0 ((es.take T.nb).map O.tI) y1).pri 0) = .nan := by
          rcases hmix with h | h
          · rw [h]; exact hterm
          · right; exact h
        rw [hkv]
        refine (zrest_special hT hO hrec (by rw [accum0_length]; omega) (by rcases h1 with h | h <;> rw [h]; exacts [hkb, by simp])).trans h1 ?_
        intro s
        have hS := (hsafe s).take T.nb
        rw [hacc, foldl_add_safe' (w := O.e) _ 0 (by rw [List.length_map]; omega) hfin (hbnd s), kinds_terms_ex hS.ex]
        intro x hx hf
        obtain ⟨a, ha, rfl⟩ := List.mem_map.1 hx
        exact hS.term a ha hf
      · have hnan : ∃ x ∈ partNums O.e O.fI (es.take T.nb), F.isNaN x = true := by
          by_contra hc
          exact hai (amaxZ_inf hT hO.zI hkb hc)
        have hkn : F.kinds (partNums O.e O.fI es) = .nan := by
          have h1 : F.kinds (partNums O.e O.fI (es.take T.nb)) = .nan := kinds_nan.2 (Or.inl hnan)
          rw [hkv, h1]; rfl
        have hai' : F.isInf (F.amaxZ T O.e O.fI O.zfill (es.take T.nb)) = false := by simpa using hai
        rw [hai', hyi]
        unfold zrest
        simp only [Bool.or_self, Bool.false_eq_true, if_false, hyn, hyi, Bool.and_false, hni, hai']
        rw [hkn]
        have key : ∀ (m : Mode) (dep' : Nat) (v u : Binned), u.pri.length = fold →
            Loose safe .nan (F.kind (nth (F.zvecLoop T fold O fuel (es.drop T.nb) dep' (v, ⟨F.kernelZ T m O.e O.fI O.zfill (es.take T.nb) u.pri, u.car⟩)).2.pri 0)) := by
          intro m dep' v u hu
          have hkn' : F.isNaN (nth (F.kernelZ T m O.e O.fI O.zfill (es.take T.nb) u.pri) 0) = true := kernelZ_nan hT he1 (by omega) (Or.inl hnan)
          have := hrec dep' v ⟨F.kernelZ T m O.e O.fI O.zfill (es.take T.nb) u.pri, u.car⟩ (by dsimp only; rw [kernelZ_len]; omega) (by dsimp only; rw [kind_nan.2 hkn']; simp)
          dsimp only at this
          rw [kind_nan.2 hkn'] at this
          exact this
        apply key
        apply update_length
        split
        · rw [renorm_length]; exact hl
        · exact hl

end Repro
