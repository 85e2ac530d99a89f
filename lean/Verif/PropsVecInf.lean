import Verif.PropsVec
import Verif.PropsInf
import Verif.Round
/-!
# C14: infinities and NaN in the blocked vector sum
-/

namespace Repro
open Fmt
variable {F : Fmt}

theorem accum0_length (b : List Flt) (y : Binned) : (F.accum0 b y).pri.length = y.pri.length := by
  unfold accum0; cases y.pri <;> rfl

theorem accum0_pri0 (b : List Flt) {y : Binned} (h : 1 ≤ y.pri.length) : nth (F.accum0 b y).pri 0 = b.foldl F.add (nth y.pri 0) := by
  unfold accum0
  cases hp : y.pri with
  | nil => rw [hp] at h; simp at h
  | cons m ms => rfl

theorem foldl_add_special [F.OK] : ∀ (b : List Flt) {m : Flt}, F.kind m ≠ .fin → F.kind (b.foldl F.add m) = (F.kind m).add (F.kinds b) := by
  intro b
  induction b with
  | nil => intro m _; simp [kinds]
  | cons x b ih =>
    intro m hm
    rw [List.foldl_cons, ih (by rw [kind_add_left hm]; exact Kind.add_ne_fin hm), kind_add_left hm]
    simp only [kinds, Kind.add_assoc]

/-- Native accumulation of a block with non-finite elements: the right kind, or NaN after an overflow of
the wrong sign. -/
theorem foldl_add_mixed [F.OK] : ∀ (b : List Flt) {m : Flt}, F.kinds b ≠ .fin →
    F.kind (b.foldl F.add m) = (F.kind m).add (F.kinds b) ∨ F.kind (b.foldl F.add m) = .nan := by
  intro b
  induction b with
  | nil => intro m h; simp [kinds] at h
  | cons x b ih =>
    intro m hb
    rw [List.foldl_cons]
    by_cases hm : F.kind m = .fin
    · by_cases hx : F.kind x = .fin
      · simp only [kinds, hx, Kind.fin_add] at hb ⊢
        rw [hm, Kind.fin_add]
        by_cases hs : F.kind (F.add m x) = .fin
        · have := ih (m := F.add m x) hb
          rwa [hs, Kind.fin_add] at this
        · rw [foldl_add_special b hs]
          cases h1 : F.kind (F.add m x) with
          | fin => exact absurd h1 hs
          | nan => right; rfl
          | inf s =>
            cases h2 : F.kinds b with
            | fin => exact absurd h2 hb
            | nan => right; rfl
            | inf t => cases s <;> cases t <;> simp [Kind.add]
      · left
        have h1 := kind_add_right (F := F) (x := m) hx
        rw [foldl_add_special b (by rw [h1, hm, Kind.fin_add]; exact hx), h1]
        simp only [kinds, Kind.add_assoc]
    · left
      have h1 := kind_add_left (F := F) (y := x) hm
      rw [foldl_add_special b (by rw [h1]; exact Kind.add_ne_fin hm), h1]
      simp only [kinds, Kind.add_assoc]

theorem nan_of_kind {x : Flt} (h : F.kind x = .nan) : F.isNaN x = true := kind_nan.1 h
theorem inf_of_kind {x : Flt} {s : Bool} (h : F.kind x = .inf s) : F.isNaN x = false ∧ F.isInf x = true := by
  have := kind_inf.1 h
  rw [this]; unfold isNaN isInf inf; simp

/-- Once the accumulator holds an infinity or NaN the loop adds the kinds. -/
theorem vecLoop_special [F.OK] {T : Tune} (hT : T.OK F) {fold : Nat} : ∀ (fuel : Nat) (vs : List Flt) {dep : Nat} {y : Binned},
    vs.length ≤ fuel → 1 ≤ y.pri.length → F.kind (nth y.pri 0) ≠ .fin →
    F.kind (nth (F.vecLoop T fold fuel vs dep y).pri 0) = (F.kind (nth y.pri 0)).add (F.kinds vs) := by
  intro fuel
  induction fuel with
  | zero =>
    intro vs dep y hlen hl hk
    have h0 : vs = [] := List.eq_nil_of_length_eq_zero (by omega)
    subst h0
    unfold vecLoop
    rw [renorm_special hk]; simp [kinds]
  | succ fuel ih =>
    intro vs dep y hlen hl hk
    unfold vecLoop
    by_cases h0 : vs = []
    · rw [if_pos h0, renorm_special hk, h0]; simp [kinds]
    · rw [if_neg h0]
      dsimp only
      have hnb1 := hT.nb1
      have hpos : 1 ≤ vs.length := List.length_pos_iff.2 h0
      have hrl : (vs.drop T.nb).length = vs.length - T.nb := List.length_drop
      have hkv : F.kinds vs = (F.kinds (vs.take T.nb)).add (F.kinds (vs.drop T.nb)) := by
        rw [← kinds_append, List.take_append_drop]
      have hacc : F.kind (nth (F.accum0 (vs.take T.nb) y).pri 0) = (F.kind (nth y.pri 0)).add (F.kinds (vs.take T.nb)) := by
        rw [accum0_pri0 _ hl, foldl_add_special _ hk]
      cases hc : F.kind (nth y.pri 0) with
      | fin => exact absurd hc hk
      | nan =>
        have hnan : ∀ y', (y' = F.accum0 (vs.take T.nb) y ∨ y' = y) → F.isNaN (nth y'.pri 0) = true := by
          intro y' h
          rcases h with h | h
          · rw [h]; apply nan_of_kind; rw [hacc, hc]; rfl
          · rw [h]; exact nan_of_kind hc
        have hy' : ∀ c : Bool, F.isNaN (nth (if c = true then F.accum0 (vs.take T.nb) y else y).pri 0) = true := by
          intro c; cases c
          · exact hnan _ (Or.inr rfl)
          · exact hnan _ (Or.inl rfl)
        rw [if_pos (hy' _)]
        exact kind_nan.2 (hy' _)
      | inf s =>
        have hi := (inf_of_kind hc).2
        rw [hi, Bool.or_true]
        simp only [if_true]
        rw [hc] at hacc
        cases hk2 : F.kind (nth (F.accum0 (vs.take T.nb) y).pri 0) with
        | fin =>
          rw [hk2] at hacc
          exact absurd hacc.symm (Kind.add_ne_fin (by simp))
        | nan =>
          rw [if_pos (nan_of_kind hk2), hk2, hkv, ← Kind.add_assoc, ← hacc, hk2]; rfl
        | inf t =>
          have hnt := inf_of_kind hk2
          rw [hnt.1, hnt.2]
          simp only [Bool.false_eq_true, if_false, if_true]
          rw [ih (vs.drop T.nb) (by omega) (by rw [accum0_length]; exact hl) (by rw [hk2]; simp), hacc, hkv, Kind.add_assoc]

/-! ### NaN in a kernel -/

theorem add_nan_left {x y : Flt} (h : F.isNaN x = true) : F.isNaN (F.add x y) = true := by
  unfold Fmt.add; rw [h]; simp only [Bool.true_or, if_true]
  unfold isNaN Fmt.nan; have := pow_pos' (F.p - 2); simp

theorem add_nan_right {x y : Flt} (h : F.isNaN y = true) : F.isNaN (F.add x y) = true := by
  rw [add_comm_all]; exact add_nan_left h

theorem or1_nan {x : Flt} (h : F.isNaN x = true) : F.isNaN (or1 x) = true := by
  unfold isNaN or1 at *
  simp only [decide_eq_true_eq] at *
  have : x.mag ≤ x.mag ||| 1 := Nat.left_le_or
  omega

theorem mul_nan_left {x y : Flt} (h : F.isNaN x = true) : F.isNaN (F.mul x y) = true := by
  unfold Fmt.mul; rw [h]; simp only [Bool.true_or, if_true]
  unfold isNaN Fmt.nan; have := pow_pos' (F.p - 2); simp

theorem kstep_pri0 (i0 : Bool) (x m : Flt) (ms : List Flt) :
    nth (F.kstep i0 x (m :: ms)) 0 = F.add m (or1 (if i0 then F.mul x F.compression else x)) := by
  unfold kstep
  cases i0
  · cases ms <;> rfl
  · rfl

theorem kstep_len (i0 : Bool) (x : Flt) (pri : List Flt) : (F.kstep i0 x pri).length = pri.length := by
  have hl : ∀ (l : List Flt) (x : Flt), (F.kloop x l).length = l.length := by
    intro l
    induction l with
    | nil => intro _; rfl
    | cons m ms ih =>
      intro x
      cases ms with
      | nil => rfl
      | cons m' ms' => unfold kloop; dsimp only; rw [List.length_cons, ih]; rfl
  unfold kstep
  split
  · cases pri with
    | nil => rfl
    | cons m ms => dsimp only; rw [List.length_cons, hl]; rfl
  · exact hl _ _

theorem kstep_nan (i0 : Bool) {x : Flt} {pri : List Flt} (hl : 1 ≤ pri.length) (h : F.isNaN x = true ∨ F.isNaN (nth pri 0) = true) :
    F.isNaN (nth (F.kstep i0 x pri) 0) = true := by
  cases pri with
  | nil => simp at hl
  | cons m ms =>
    rw [kstep_pri0]
    rcases h with h | h
    · apply add_nan_right; apply or1_nan
      split
      · exact mul_nan_left h
      · exact h
    · exact add_nan_left h

theorem ksteps_nan (i0 : Bool) : ∀ (xs : List Flt) {pri : List Flt}, 1 ≤ pri.length →
    ((∃ x ∈ xs, F.isNaN x = true) ∨ F.isNaN (nth pri 0) = true) →
    F.isNaN (nth (xs.foldl (fun s x => F.kstep i0 x s) pri) 0) = true := by
  intro xs
  induction xs with
  | nil => intro pri _ h; simpa using h
  | cons x xs ih =>
    intro pri hl h
    rw [List.foldl_cons]
    apply ih (by rw [kstep_len]; exact hl)
    rcases h with ⟨z, hz, hn⟩ | h
    · rcases List.mem_cons.1 hz with e | e
      · right; subst e; exact kstep_nan i0 hl (Or.inl hn)
      · left; exact ⟨z, e, hn⟩
    · right; exact kstep_nan i0 hl (Or.inr h)

theorem foldl_nan_start {α : Type} (f : α → Flt) : ∀ (l : List α) {a : Flt}, F.isNaN a = true →
    F.isNaN (l.foldl (fun a r => F.add a (f r)) a) = true := by
  intro l
  induction l with
  | nil => intro a h; exact h
  | cons x l ih => intro a h; rw [List.foldl_cons]; exact ih (add_nan_left h)

theorem foldl_nan_mem {α : Type} (f : α → Flt) : ∀ (l : List α) {a : Flt} {r : α}, r ∈ l → F.isNaN (f r) = true →
    F.isNaN (l.foldl (fun a r => F.add a (f r)) a) = true := by
  intro l
  induction l with
  | nil => intro a r h; simp at h
  | cons x l ih =>
    intro a r h hn
    rw [List.foldl_cons]
    rcases List.mem_cons.1 h with e | e
    · subst e; exact foldl_nan_start f l (add_nan_right hn)
    · exact ih e hn

theorem sub_nan_left {x y : Flt} (h : F.isNaN x = true) : F.isNaN (F.sub x y) = true := by
  unfold sub; exact add_nan_left h

theorem trace_mem_of_mem {T : Tune} (h : T.OK F) {vs : List Flt} {x : Flt} (hx : x ∈ vs) : ∃ d ∈ T.trace vs, d.2 = x := by
  have hdone := tune_done h vs.length
  rw [← nth_list vs, List.mem_map] at hx
  obtain ⟨i, hi, rfl⟩ := hx
  rw [← hdone.vis, List.mem_flatMap] at hi
  obtain ⟨c, hc, hi⟩ := hi
  have : nth vs i ∈ (T.deal vs c).map Prod.snd := by
    rw [deal_vals h vs (hdone.shape c hc), List.mem_append]
    left; exact List.mem_map.2 ⟨i, hi, rfl⟩
  rw [List.mem_map] at this
  obtain ⟨d, hd, he⟩ := this
  exact ⟨d, by unfold Tune.trace; rw [List.mem_flatMap]; exact ⟨c, hc, hd⟩, he⟩

/-- A NaN dealt to any lane reaches the first primary. -/
theorem kernel_nan {T : Tune} (h : T.OK F) {vs pri : List Flt} (hl : 1 ≤ pri.length) (hx : ∃ x ∈ vs, F.isNaN x = true) :
    F.isNaN (nth (F.kernel T vs pri) 0) = true := by
  obtain ⟨a, ha⟩ := h.ts
  obtain ⟨b, hb⟩ := h.pipe
  have hts : 1 ≤ T.ts := by rw [ha]; exact Nat.two_pow_pos a
  obtain ⟨x, hx, hn⟩ := hx
  obtain ⟨d, hd, he⟩ := trace_mem_of_mem h hx
  have hlane := trace_lane h vs hd
  have hv : F.isNaN (nth ((F.lanes (F.dmindex0 (nth pri 0)) T.pipe (T.trace vs) pri).getD d.1 pri) 0) = true := by
    rw [lanes_getD _ _ _ hlane]
    apply ksteps_nan _ _ hl
    left
    refine ⟨x, ?_, hn⟩
    unfold laneVals
    rw [List.mem_map]
    exact ⟨d, List.mem_filter.2 ⟨hd, by simp⟩, he⟩
  unfold kernel consolidate
  have e0 : pri.length = (pri.length - 1) + 1 := by omega
  have hnth : ∀ f : Nat → Flt, nth ((List.range pri.length).map f) 0 = f 0 := by
    intro f; rw [e0, List.range_succ_eq_map]; rfl
  rw [hnth]
  split
  · -- vector code
    have hab : ∃ R, 1 ≤ R ∧ T.pipe = R * T.ts := by
      have := h.tp
      rw [ha, hb] at this
      have := (Nat.pow_le_pow_iff_right (by omega : 1 < 2)).1 this
      refine ⟨2 ^ (b - a), Nat.two_pow_pos _, ?_⟩
      rw [ha, hb, ← Nat.pow_add]; congr 1; omega
    obtain ⟨R, hR, hRe⟩ := hab
    have hdiv : T.pipe / T.ts = R := by rw [hRe]; exact Nat.mul_div_cancel _ (by omega)
    unfold consSIMD
    rw [hdiv]
    have hr : d.1 / T.ts < R := Nat.div_lt_of_lt_mul (by rw [Nat.mul_comm, ← hRe]; exact hlane)
    have hi : d.1 % T.ts < T.ts := Nat.mod_lt _ hts
    have hdm := Nat.div_add_mod d.1 T.ts
    have hreg : F.isNaN ((List.range' 1 (R - 1)).foldl (fun a r => F.add a (F.sub (nth ((F.lanes (F.dmindex0 (nth pri 0)) T.pipe (T.trace vs) pri).getD (r * T.ts + d.1 % T.ts) pri) 0) (nth pri 0)))
        (F.sub (nth ((F.lanes (F.dmindex0 (nth pri 0)) T.pipe (T.trace vs) pri).getD (d.1 % T.ts) pri) 0) (if d.1 % T.ts = 0 then zero else (nth pri 0)))) = true := by
      by_cases h0 : d.1 / T.ts = 0
      · apply foldl_nan_start (fun r => F.sub (nth ((F.lanes (F.dmindex0 (nth pri 0)) T.pipe (T.trace vs) pri).getD (r * T.ts + d.1 % T.ts) pri) 0) (nth pri 0))
        apply sub_nan_left
        rw [h0, Nat.mul_zero, Nat.zero_add] at hdm
        rw [hdm]; exact hv
      · apply foldl_nan_mem (fun r => F.sub (nth ((F.lanes (F.dmindex0 (nth pri 0)) T.pipe (T.trace vs) pri).getD (r * T.ts + d.1 % T.ts) pri) 0) (nth pri 0)) _ (r := d.1 / T.ts)
        · generalize d.1 / T.ts = q at hr h0
          rw [List.mem_range']; exact ⟨q - 1, by omega, by omega⟩
        · apply sub_nan_left
          rw [Nat.mul_comm, hdm]; exact hv
    by_cases h0 : d.1 % T.ts = 0
    · rw [h0] at hreg
      exact foldl_nan_start (fun i => (List.range' 1 (R - 1)).foldl (fun a r => F.add a (F.sub (nth ((F.lanes (F.dmindex0 (nth pri 0)) T.pipe (T.trace vs) pri).getD (r * T.ts + i) pri) 0) (nth pri 0)))
        (F.sub (nth ((F.lanes (F.dmindex0 (nth pri 0)) T.pipe (T.trace vs) pri).getD i pri) 0) (if i = 0 then zero else (nth pri 0)))) _ hreg
    · exact foldl_nan_mem (fun i => (List.range' 1 (R - 1)).foldl (fun a r => F.add a (F.sub (nth ((F.lanes (F.dmindex0 (nth pri 0)) T.pipe (T.trace vs) pri).getD (r * T.ts + i) pri) 0) (nth pri 0)))
        (F.sub (nth ((F.lanes (F.dmindex0 (nth pri 0)) T.pipe (T.trace vs) pri).getD i pri) 0) (if i = 0 then zero else (nth pri 0)))) _
        (r := d.1 % T.ts) (by rw [List.mem_range']; exact ⟨d.1 % T.ts - 1, by omega, by omega⟩) hreg
  · unfold consSISD
    by_cases h0 : d.1 = 0
    · rw [h0] at hv
      exact foldl_nan_start (fun r => F.sub (nth ((F.lanes (F.dmindex0 (nth pri 0)) T.pipe (T.trace vs) pri).getD r pri) 0) (nth pri 0)) _ hv
    · exact foldl_nan_mem (fun r => F.sub (nth ((F.lanes (F.dmindex0 (nth pri 0)) T.pipe (T.trace vs) pri).getD r pri) 0) (nth pri 0)) _
        (r := d.1) (by rw [List.mem_range']; exact ⟨d.1 - 1, by omega, by omega⟩) (sub_nan_left hv)

/-! ### blocks with non-finite elements -/

/-- Finite numbers of index at least 1 (`|x| < 2^(MAX_EXP - W)`) cannot overflow a primary of index at
least 1 by native addition within a block. -/
theorem foldl_add_safe [F.OK] : ∀ (b : List Flt) (n : Nat) {m : Flt}, n + b.length ≤ F.endurance → F.Finite m →
    (F.toInt m).natAbs ≤ (2 ^ (F.p - F.W + 1) + n) * 2 ^ (F.uexp 1 + F.W - 1) →
    (∀ x ∈ b, F.Finite x → 1 ≤ F.dindex x) → F.kind (b.foldl F.add m) = F.kinds b := by
  have ⟨hp, hW, hWp, hpW, he, he1, hb, het, _⟩ := F.facts
  have hb9 := F.bfacts
  intro b
  induction b with
  | nil => intro n m _ hm _ _; simp only [kinds, List.foldl_nil]; exact kind_fin.2 hm
  | cons x b ih =>
    intro n m hn hm hbd hx
    rw [List.foldl_cons]
    rw [List.length_cons] at hn
    simp only [kinds]
    by_cases hxf : F.kind x = .fin
    · have hxF := kind_fin.1 hxf
      rw [hxf, Kind.fin_add]
      have hmax1 : 1 ≤ F.maxIndex := by
        have := hx x List.mem_cons_self hxF; have := dindex_le_max (F := F) x; omega
      have hu1 : F.uexp 1 = F.eta + F.maxExp + 1 - F.W - F.W := by
        unfold uexp; rw [Nat.min_eq_left hmax1, Nat.mul_one]
      have hxb : F.val x.mag ≤ 2 ^ (F.uexp 1 + F.W - 1) := by
        have h1 := dindex_upper (F := F) hxF
        have h2 := hx x List.mem_cons_self hxF
        have h3 : F.W * 1 ≤ F.W * F.dindex x := Nat.mul_le_mul_left _ h2
        refine Nat.le_of_lt (Nat.lt_of_lt_of_le h1 (Nat.pow_le_pow_right (by omega) ?_))
        omega
      have hE : F.endurance = 2 ^ (F.p - F.W - 2) := rfl
      have hlt : 2 ^ (F.p - F.W - 2) < 2 ^ (F.p - F.W + 1) := Nat.pow_lt_pow_right (by omega) (by omega)
      have h2 : 2 ^ (F.p - F.W + 2) = 2 * 2 ^ (F.p - F.W + 1) := by rw [← Nat.pow_succ']
      have hmant : 2 ^ (F.p - F.W + 1) + (n + 1) < 2 ^ (F.p - F.W + 2) := by omega
      have hsum : (F.toInt m + F.toInt x).natAbs ≤ (2 ^ (F.p - F.W + 1) + (n + 1)) * 2 ^ (F.uexp 1 + F.W - 1) := by
        have h3 := toInt_natAbs (F := F) x
        rw [← Nat.add_assoc, Nat.add_mul, Nat.one_mul]; omega
      have hadd := add_le (F := F) hm hxF (m := 2 ^ (F.p - F.W + 1) + (n + 1)) (e := F.uexp 1 + F.W - 1)
        (Nat.lt_of_lt_of_le hmant (Nat.pow_le_pow_right (by omega) (by omega)))
        (by
          have h4 : (2 ^ (F.p - F.W + 1) + (n + 1)) * 2 ^ (F.uexp 1 + F.W - 1) < 2 ^ (F.p - F.W + 2) * 2 ^ (F.uexp 1 + F.W - 1) :=
            Nat.mul_lt_mul_of_pos_right hmant (pow_pos' _)
          rw [← Nat.pow_add] at h4
          refine Nat.lt_of_lt_of_le h4 (Nat.pow_le_pow_right (by omega) ?_)
          rw [hu1]
          have : F.p + 2 ≤ 2 * F.W := by
            rcases (inferInstance : F.OK).isDoubleOrFloat with rfl | rfl <;> decide
          omega) hsum
      exact ih (n + 1) (by omega) hadd.1 hadd.2 (fun z hz => hx z (List.mem_cons_of_mem _ hz))
    · have h1 := kind_add_right (F := F) (x := m) hxf
      rw [kind_fin.2 hm, Kind.fin_add] at h1
      rw [foldl_add_special b (by rw [h1]; exact hxf), h1]

theorem amax_inf [F.OK] {T : Tune} (h : T.OK F) {b : List Flt} (hk : F.kinds b ≠ .fin) (hn : ¬ ∃ x ∈ b, F.isNaN x = true) :
    F.isInf (F.amaxK T (b.map fabs)) = true := by
  have hnn : ∀ x ∈ b, F.isNaN x = false := by
    intro x hx
    by_contra hc
    exact hn ⟨x, hx, by simpa using hc⟩
  have e : F.amaxK T (b.map fabs) = ⟨false, maxMag b⟩ := damax_eq h hnn
  rw [e]
  have : ∃ x ∈ b, ¬ F.Finite x := by
    by_contra hc
    push_neg at hc
    exact hk (kinds_fin.2 hc)
  obtain ⟨x, hx, hf⟩ := this
  have h1 := le_maxMag hx
  have h2 : maxMag b ≤ F.infMag := maxMag_le (fun z hz => by have := hnn z hz; unfold isNaN at this; simpa using this)
  unfold Finite at hf
  unfold isInf
  simp; omega

/-- The states met by the loop while everything is finite. -/
def LoopState' (F : Fmt) (fold dep N : Nat) (y : Binned) (safe : Prop) : Prop :=
  (y = dmsetzero fold ∧ dep = 0) ∨ ∃ d k A, F.Mid fold d N k A y ∧ d ≤ dep ∧ (safe → 1 ≤ k)

theorem state_pri0 [F.OK] {fold dep N : Nat} (hfold : 2 ≤ fold) {y : Binned} {safe : Prop} (hs : LoopState' F fold dep N y safe) (hdep : dep ≤ F.endurance) :
    y.pri.length = fold ∧ F.Finite (nth y.pri 0) ∧
    (safe → (F.toInt (nth y.pri 0)).natAbs ≤ (2 ^ (F.p - F.W + 1) + 0) * 2 ^ (F.uexp 1 + F.W - 1)) := by
  have ⟨hp, hW, hWp, hpW, he, he1, hb, het, _⟩ := F.facts
  rcases hs with ⟨h, _⟩ | ⟨d, k, A, hm, hd, hk⟩
  · subst h
    have e : nth (dmsetzero fold).pri 0 = zero := by unfold dmsetzero; exact nth_setzero fold
    refine ⟨by simp [dmsetzero], by rw [e]; exact zero_finite, ?_⟩
    intro _
    rw [e, toInt_natAbs]
    have : F.val zero.mag = 0 := val_eq_zero.2 rfl
    rw [this]; exact Nat.zero_le _
  · have hlen : y.pri.length = fold := by
      obtain ⟨B, C, Z, h1, _⟩ := hm
      rw [h1]; simp [midZ]
    obtain ⟨b, hw, he⟩ := hm.pri (by omega) (show 0 < fold by omega)
    rw [Nat.add_zero] at he
    refine ⟨hlen, by rw [he]; exact mkPri_finite hw, ?_⟩
    intro hsafe
    have hk1 := hk hsafe
    have wm := win_mant hw
    rw [he, mkPri_eq, mkF_toInt (le_of_lt wm.1) wm.2]
    have hs : F.sexp k = F.uexp k := sexp_pos (by omega)
    rw [hs, Int.natAbs_mul]
    have h1 : (3 * 2 ^ (F.p - 2) + b : Int).natAbs ≤ 2 ^ F.p := by
      have := cast_pow F.p
      have := ipow_pos (F.p - 1)
      omega
    have h2 : ((2 : Int) ^ F.uexp k).natAbs = 2 ^ F.uexp k := by
      rw [← cast_pow]; exact Int.natAbs_natCast _
    have h3 : 2 ^ F.uexp k ≤ 2 ^ F.uexp 1 := Nat.pow_le_pow_right (by omega) (uexp_anti hk1)
    rw [h2, Nat.add_zero, ← Nat.pow_add]
    have e2 : F.p - F.W + 1 + (F.uexp 1 + F.W - 1) = F.p + F.uexp 1 := by
      have := uexp_ge (F := F) 1; omega
    rw [e2, Nat.pow_add]
    exact Nat.mul_le_mul h1 h3

/-- The loop on values some of which are not finite. -/
theorem vecLoop_mixed [F.OK] {T : Tune} (hT : T.OK F) {fold : Nat} (hfold : 2 ≤ fold) {safe : Prop} : ∀ (fuel : Nat) (vs : List Flt)
    {dep N : Nat} {y : Binned}, vs.length ≤ fuel → LoopState' F fold dep N y safe → dep ≤ F.endurance → N + vs.length ≤ F.capacity →
    (safe → ∀ x ∈ vs, F.Finite x → 1 ≤ F.dindex x) → F.kinds vs ≠ .fin →
    (F.kind (nth (F.vecLoop T fold fuel vs dep y).pri 0) = F.kinds vs ∨ F.kind (nth (F.vecLoop T fold fuel vs dep y).pri 0) = .nan) ∧
    (safe → F.kind (nth (F.vecLoop T fold fuel vs dep y).pri 0) = F.kinds vs) := by
  intro fuel
  induction fuel with
  | zero =>
    intro vs dep N y hlen _ _ _ _ hk
    have h0 : vs = [] := List.eq_nil_of_length_eq_zero (by omega)
    subst h0; exact absurd rfl hk
  | succ fuel ih =>
    intro vs dep N y hlen hst hdep hN hsafe hk
    unfold vecLoop
    have h0 : vs ≠ [] := by intro h0; subst h0; exact hk rfl
    rw [if_neg h0]
    dsimp only
    obtain ⟨hl, hfin, hbnd⟩ := state_pri0 hfold hst hdep
    have hnb1 := hT.nb1
    have hnb2 := hT.nb2
    have hpos : 1 ≤ vs.length := List.length_pos_iff.2 h0
    have hbl : (vs.take T.nb).length = min T.nb vs.length := List.length_take
    have hbne : vs.take T.nb ≠ [] := by intro hc; rw [hc] at hbl; simp at hbl; omega
    have hrl : (vs.drop T.nb).length = vs.length - T.nb := List.length_drop
    have hkv : F.kinds vs = (F.kinds (vs.take T.nb)).add (F.kinds (vs.drop T.nb)) := by
      rw [← kinds_append, List.take_append_drop]
    have hyi : F.isInf (nth y.pri 0) = false := finite_not_inf hfin
    have hyn : F.isNaN (nth y.pri 0) = false := finite_not_nan hfin
    by_cases hkb : F.kinds (vs.take T.nb) = .fin
    · -- a finite block
      have hbf := kinds_fin.1 hkb
      obtain ⟨ha1, ha2⟩ := amax_block hT hbne hbf
      rw [finite_not_inf ha1, hyi]
      simp only [Bool.or_self, Bool.false_eq_true, if_false, hyn, hyi]
      rw [hkb, Kind.fin_add] at hkv
      rw [hkv]
      have hk' : F.kinds (vs.drop T.nb) ≠ .fin := by rw [← hkv]; exact hk
      have hsafe' : safe → ∀ x ∈ vs.drop T.nb, F.Finite x → 1 ≤ F.dindex x := fun s x hx => hsafe s x (List.mem_of_mem_drop hx)
      have hmi : safe → 1 ≤ F.minIndex (vs.take T.nb) := by
        intro s
        obtain ⟨x, hx, he⟩ := maxMag_mem hbne
        have h1 := hsafe s x (List.mem_of_mem_take hx) (hbf x hx)
        have h2 := dindex_maxMag hbne hbf
        have h3 : F.dindex ⟨false, maxMag (vs.take T.nb)⟩ = F.dindex x := dindex_mag _ _ he.symm
        omega
      -- state after the renormalisation that may be due
      have go : ∀ {d dep' k : Nat} {A : Nat → Int} {y' : Binned},
          F.Mid fold d N k A (F.dmdupdate fold (F.amaxK T ((vs.take T.nb).map fabs)) y') → d ≤ dep' → (safe → 1 ≤ k) →
          k ≤ F.minIndex (vs.take T.nb) → dep' + (vs.take T.nb).length ≤ F.endurance →
          (F.kind (nth (F.vecLoop T fold fuel (vs.drop T.nb) (dep' + (vs.take T.nb).length)
            ⟨F.kernel T (vs.take T.nb) (F.dmdupdate fold (F.amaxK T ((vs.take T.nb).map fabs)) y').pri,
              (F.dmdupdate fold (F.amaxK T ((vs.take T.nb).map fabs)) y').car⟩).pri 0) = F.kinds (vs.drop T.nb) ∨
           F.kind (nth (F.vecLoop T fold fuel (vs.drop T.nb) (dep' + (vs.take T.nb).length)
            ⟨F.kernel T (vs.take T.nb) (F.dmdupdate fold (F.amaxK T ((vs.take T.nb).map fabs)) y').pri,
              (F.dmdupdate fold (F.amaxK T ((vs.take T.nb).map fabs)) y').car⟩).pri 0) = .nan) ∧
          (safe → F.kind (nth (F.vecLoop T fold fuel (vs.drop T.nb) (dep' + (vs.take T.nb).length)
            ⟨F.kernel T (vs.take T.nb) (F.dmdupdate fold (F.amaxK T ((vs.take T.nb).map fabs)) y').pri,
              (F.dmdupdate fold (F.amaxK T ((vs.take T.nb).map fabs)) y').car⟩).pri 0) = F.kinds (vs.drop T.nb)) := by
        intro d dep' k A y' hm hd hks hkm hle
        have hb := Mid_block hT hfold hm (b := vs.take T.nb) (by omega)
          (fun x hx => ⟨hbf x hx, by have := minIndex_le_mem (F := F) hx; omega⟩)
        exact ih (vs.drop T.nb) (N := N + (vs.take T.nb).length) (by omega) (Or.inr ⟨_, _, _, hb, by omega, hks⟩) hle (by omega) hsafe' hk'
      rcases hst with ⟨hz, hd0⟩ | ⟨d, k, A, hm, hd, hks⟩
      · have hov : ¬ (dep + (vs.take T.nb).length > F.endurance) := by omega
        simp only [if_neg hov]
        subst hz
        have hu := (mid_empty (F := F) (fold := fold) (x := F.amaxK T ((vs.take T.nb).map fabs))).mono (Nat.le_refl 0) (Nat.zero_le N)
        rw [ha2] at hu
        exact go hu (Nat.zero_le _) hmi (Nat.le_refl _) (by omega)
      · have hmk : k ≤ F.maxIndex := by obtain ⟨_, _, _, _, _, _, _, h5, _⟩ := hm; exact h5
        by_cases hov : dep + (vs.take T.nb).length > F.endurance
        · simp only [if_pos hov]
          have hcn := hm.renorm (by omega) (by omega) (by omega)
          have hA : ∀ j, (A j).natAbs ≤ N * 2 ^ (F.W - 1) := by obtain ⟨_, _, _, _, _, _, _, _, h6⟩ := hm; exact h6
          have hm' : F.Mid fold 0 N k A (F.dmrenorm y) := by rw [hcn]; exact mid_canon hmk hm.zeros hA
          have hu := hm'.update (x := F.amaxK T ((vs.take T.nb).map fabs)) (by omega) (by omega)
          rw [ha2] at hu
          exact go hu (Nat.le_refl 0) (fun s => by have := hks s; have := hmi s; omega) (by omega) (by omega)
        · simp only [if_neg hov]
          have hu := hm.update (x := F.amaxK T ((vs.take T.nb).map fabs)) (by omega) (by omega)
          rw [ha2] at hu
          exact go hu hd (fun s => by have := hks s; have := hmi s; omega) (by omega) (by omega)
    · -- a block with non-finite elements
      have accfin : ∀ {K : Kind}, F.kind (nth (F.accum0 (vs.take T.nb) y).pri 0) = K → K ≠ .fin →
          F.kind (nth (if F.isNaN (nth (F.accum0 (vs.take T.nb) y).pri 0) = true then F.accum0 (vs.take T.nb) y
            else if F.isInf (nth (F.accum0 (vs.take T.nb) y).pri 0) = true then
              F.vecLoop T fold fuel (vs.drop T.nb) dep (F.accum0 (vs.take T.nb) y)
            else F.vecLoop T fold fuel (vs.drop T.nb)
              ((if dep + (vs.take T.nb).length > F.endurance then 0 else dep) + (vs.take T.nb).length)
              ⟨F.kernel T (vs.take T.nb) (F.dmdupdate fold (F.amaxK T ((vs.take T.nb).map fabs))
                (if dep + (vs.take T.nb).length > F.endurance then F.dmrenorm (F.accum0 (vs.take T.nb) y) else F.accum0 (vs.take T.nb) y)).pri,
                (F.dmdupdate fold (F.amaxK T ((vs.take T.nb).map fabs))
                (if dep + (vs.take T.nb).length > F.endurance then F.dmrenorm (F.accum0 (vs.take T.nb) y) else F.accum0 (vs.take T.nb) y)).car⟩).pri 0)
            = K.add (F.kinds (vs.drop T.nb)) := by
        intro K hK hKf
        cases K with
        | fin => exact absurd rfl hKf
        | nan => rw [if_pos (nan_of_kind hK), hK]; rfl
        | inf s =>
          have hi := inf_of_kind hK
          rw [hi.1, hi.2]
          simp only [Bool.false_eq_true, if_false, if_true]
          rw [vecLoop_special hT fuel (vs.drop T.nb) (by omega) (by rw [accum0_length]; omega) (by rw [hK]; simp), hK]
      by_cases hai : F.isInf (F.amaxK T ((vs.take T.nb).map fabs)) = true
      · rw [hai]
        simp only [Bool.true_or, if_true]
        have hacc := accum0_pri0 (F := F) (vs.take T.nb) (y := y) (by omega)
        have hmix := foldl_add_mixed (F := F) (vs.take T.nb) (m := nth y.pri 0) hkb
        rw [kind_fin.2 hfin, Kind.fin_add, ← hacc] at hmix
        constructor
        · rcases hmix with hm | hm
          · left; rw [accfin hm hkb, hkv]
          · right; rw [accfin hm (by simp)]; rfl
        · intro s
          have hs := foldl_add_safe (F := F) (vs.take T.nb) 0 (m := nth y.pri 0) (by omega) hfin (hbnd s)
            (fun x hx => hsafe s x (List.mem_of_mem_take hx))
          rw [← hacc] at hs
          rw [accfin hs hkb, hkv]
      · have hnan : ∃ x ∈ vs.take T.nb, F.isNaN x = true := by
          by_contra hc
          exact hai (amax_inf hT hkb hc)
        have hkn : F.kinds vs = .nan := by
          have h1 : F.kinds (vs.take T.nb) = .nan := kinds_nan.2 (Or.inl hnan)
          rw [hkv, h1]; rfl
        have hai' : F.isInf (F.amaxK T ((vs.take T.nb).map fabs)) = false := by simpa using hai
        rw [hai', hyi]
        simp only [Bool.or_self, Bool.false_eq_true, if_false, hyn, hyi]
        have key : ∀ (dep' : Nat) (y' : Binned), y'.pri.length = fold →
            F.kind (nth (F.vecLoop T fold fuel (vs.drop T.nb) dep'
              ⟨F.kernel T (vs.take T.nb) (F.dmdupdate fold (F.amaxK T ((vs.take T.nb).map fabs)) y').pri,
              (F.dmdupdate fold (F.amaxK T ((vs.take T.nb).map fabs)) y').car⟩).pri 0) = .nan := by
          intro dep' y' hy'
          have hlen' : (F.dmdupdate fold (F.amaxK T ((vs.take T.nb).map fabs)) y').pri.length = fold := update_length hy'
          have hkn' := kernel_nan hT (vs := vs.take T.nb) (pri := (F.dmdupdate fold (F.amaxK T ((vs.take T.nb).map fabs)) y').pri) (by omega) hnan
          have hklen : 1 ≤ (F.kernel T (vs.take T.nb) (F.dmdupdate fold (F.amaxK T ((vs.take T.nb).map fabs)) y').pri).length := by
            unfold kernel consolidate; rw [List.length_map, List.length_range, hlen']; omega
          rw [vecLoop_special hT fuel (vs.drop T.nb) (by omega) hklen (by dsimp only; rw [kind_nan.2 hkn']; simp)]
          dsimp only
          rw [kind_nan.2 hkn']; rfl
        rw [hkn]
        have hlen2 : (if dep + (vs.take T.nb).length > F.endurance then F.dmrenorm y else y).pri.length = fold := by
          split
          · rw [renorm_length]; exact hl
          · exact hl
        have := key ((if dep + (vs.take T.nb).length > F.endurance then 0 else dep) + (vs.take T.nb).length) _ hlen2
        exact ⟨Or.inr this, fun _ => this⟩

theorem hist_state [F.OK] {fold : Nat} (hfold : 2 ≤ fold) {h : Hist} (hl : h.Legal F) (hN : h.nums.length ≤ F.capacity) (safe : Prop)
    (hs : safe → ∀ x ∈ h.seen, 1 ≤ F.dindex x) : LoopState' F fold 0 h.nums.length (h.eval F fold) safe := by
  have hm := hist_mid hfold h hl hN
  by_cases h0 : h.seen = []
  · left; exact ⟨(hm.1 h0).1, rfl⟩
  · right
    refine ⟨0, _, _, hm.2.1 h0, Nat.le_refl _, ?_⟩
    intro s
    have : ∀ l : List Flt, (∀ x ∈ l, 1 ≤ F.dindex x) → 1 ≤ F.minIndex l := by
      intro l
      induction l with
      | nil => intro _; show 1 ≤ F.maxIndex
               rcases (inferInstance : F.OK).isDoubleOrFloat with rfl | rfl <;> decide
      | cons x l ih =>
        intro hx
        have h1 := hx x List.mem_cons_self
        have h2 := ih (fun z hz => hx z (List.mem_cons_of_mem _ hz))
        rw [minIndex_cons]; omega
    exact this _ (hs s)

/-- **C14** (what always holds). When the vector contains NaN, or infinities of both signs, the converted
result of the blocked sum is NaN in every order and for every tuning; when it contains only
infinities of sign `s`, the converted result is that infinity or NaN, but never finite and never the
other infinity. -/
theorem C14_special_values [F.OK] {T : Tune} (hT : T.OK F) {fold : Nat} (hfold : 2 ≤ fold) {h : Hist} (hl : h.Legal F)
    {vs : List Flt} (hN : vs.length + h.nums.length ≤ F.capacity) :
    ((∃ x ∈ vs, F.isNaN x = true) ∨ (F.inf false ∈ vs ∧ F.inf true ∈ vs) →
      F.isNaN (convert F fold (F.vecSum T fold vs (h.eval F fold))) = true) ∧
    (∀ s, F.inf s ∈ vs → F.isNaN (convert F fold (F.vecSum T fold vs (h.eval F fold))) = true ∨
      convert F fold (F.vecSum T fold vs (h.eval F fold)) = F.inf s) := by
  have main : F.kinds vs ≠ .fin → _ := fun hk => (vecLoop_mixed hT hfold (safe := False) vs.length vs (N := h.nums.length) (Nat.le_refl _)
    (hist_state hfold hl (by omega) False (fun f => f.elim)) (Nat.zero_le _) (by omega) (fun f => f.elim) hk).1
  constructor
  · intro hn
    have hk := kinds_nan.2 hn
    have := main (by rw [hk]; simp)
    rw [hk] at this
    have : F.kind (nth (F.vecSum T fold vs (h.eval F fold)).pri 0) = .nan := by rcases this with h | h <;> exact h
    rw [convert_special (by rw [this]; simp)]
    exact nan_of_kind this
  · intro s hs
    have hk : F.kinds vs ≠ .fin := by
      intro hc
      have := kinds_fin.1 hc _ hs
      unfold Finite inf at this; simp at this
    have hs' : F.kinds vs = .inf s ∨ F.kinds vs = .nan := by
      cases hc : F.kinds vs with
      | fin => exact absurd hc hk
      | nan => right; rfl
      | inf t =>
        left
        have hts : F.kinds vs ≠ .nan := by rw [hc]; simp
        by_cases hst : t = s
        · rw [hst]
        · exfalso
          have hm : F.inf t ∈ vs := by
            have aux : ∀ l : List Flt, F.kinds l = .inf t → F.inf t ∈ l := by
              intro l
              induction l with
              | nil => intro hh; simp [kinds] at hh
              | cons x l ih =>
                intro hh
                simp only [kinds] at hh
                cases hx : F.kind x with
                | fin => rw [hx, Kind.fin_add] at hh; exact List.mem_cons_of_mem _ (ih hh)
                | nan => rw [hx] at hh; simp [Kind.add] at hh
                | inf u =>
                  rw [hx] at hh
                  cases hl : F.kinds l with
                  | fin => rw [hl] at hh; simp [Kind.add] at hh; rw [← hh]; rw [kind_inf.1 hx]; exact List.mem_cons_self
                  | nan => rw [hl] at hh; simp [Kind.add] at hh
                  | inf w =>
                    rw [hl] at hh
                    cases u <;> cases w <;> cases t <;> simp [Kind.add] at hh <;> rw [kind_inf.1 hx] <;> exact List.mem_cons_self
            exact aux vs hc
          apply hts
          rw [kinds_nan]
          right
          cases s <;> cases t <;> first | exact absurd rfl hst | exact ⟨hs, hm⟩ | exact ⟨hm, hs⟩
    have hm := main hk
    have : F.kind (nth (F.vecSum T fold vs (h.eval F fold)).pri 0) = .inf s ∨ F.kind (nth (F.vecSum T fold vs (h.eval F fold)).pri 0) = .nan := by
      rcases hm with h1 | h1
      · rcases hs' with h2 | h2
        · left; exact h1.trans h2
        · right; exact h1.trans h2
      · right; exact h1
    rcases this with h1 | h1
    · right
      rw [convert_special (by rw [h1]; simp)]
      exact kind_inf.1 h1
    · left
      rw [convert_special (by rw [h1]; simp)]
      exact nan_of_kind h1

/-- **C14** (partial). Reproducibility in the presence of infinities holds if every finite number, in the
vector and in the accumulator, is below `2^(MAX_EXP - W)` (index at least 1), so that native
accumulation cannot overflow: two vectors with the same elements give the same infinity, or NaN both.
Missing: larger finite numbers, for which it is false (`C14_violated`). -/
theorem C14_reproducible_partial [F.OK] {T T' : Tune} (hT : T.OK F) (hT' : T'.OK F) {fold : Nat} (hfold : 2 ≤ fold) {h : Hist} (hl : h.Legal F)
    {vs ws : List Flt} (hp : vs.Perm ws) (hN : vs.length + h.nums.length ≤ F.capacity)
    (hinf : ∃ x ∈ vs, ¬ F.Finite x)
    (hv : ∀ x ∈ vs, F.Finite x → 1 ≤ F.dindex x) (hs : ∀ x ∈ h.seen, 1 ≤ F.dindex x) :
    (F.isNaN (convert F fold (F.vecSum T fold vs (h.eval F fold))) = true ∧
      F.isNaN (convert F fold (F.vecSum T' fold ws (h.eval F fold))) = true) ∨
    ∃ s, convert F fold (F.vecSum T fold vs (h.eval F fold)) = F.inf s ∧
      convert F fold (F.vecSum T' fold ws (h.eval F fold)) = F.inf s := by
  have hk : F.kinds vs ≠ .fin := by
    intro hc
    obtain ⟨x, hx, hf⟩ := hinf
    exact hf (kinds_fin.1 hc x hx)
  have hkw : F.kinds ws = F.kinds vs := (kinds_perm hp).symm
  have m1 := (vecLoop_mixed hT hfold (safe := True) vs.length vs (N := h.nums.length) (Nat.le_refl _)
    (hist_state hfold hl (by omega) True (fun _ => hs)) (Nat.zero_le _) (by omega) (fun _ => hv) hk).2 trivial
  have m2 := (vecLoop_mixed hT' hfold (safe := True) ws.length ws (N := h.nums.length) (Nat.le_refl _)
    (hist_state hfold hl (by omega) True (fun _ => hs)) (Nat.zero_le _) (by rw [← hp.length_eq]; omega)
    (fun _ x hx => hv x (hp.mem_iff.2 hx)) (by rw [hkw]; exact hk)).2 trivial
  rw [hkw] at m2
  have c1 : convert F fold (F.vecSum T fold vs (h.eval F fold)) = nth (F.vecSum T fold vs (h.eval F fold)).pri 0 :=
    convert_special (by intro hc; exact hk (m1.symm.trans hc))
  have c2 : convert F fold (F.vecSum T' fold ws (h.eval F fold)) = nth (F.vecSum T' fold ws (h.eval F fold)).pri 0 :=
    convert_special (by intro hc; exact hk (m2.symm.trans hc))
  rw [c1, c2]
  cases hc : F.kinds vs with
  | fin => exact absurd hc hk
  | nan =>
    rw [hc] at m1 m2
    left; exact ⟨nan_of_kind m1, nan_of_kind m2⟩
  | inf s =>
    rw [hc] at m1 m2
    right; exact ⟨s, kind_inf.1 m1, kind_inf.1 m2⟩

/-- **C14 is false** without that restriction: `dsum` of `[MAX, MAX, -Inf]` is NaN, of `[-Inf, MAX, MAX]`
it is `-Inf` (`MAX` is the largest finite double). -/
theorem C14_violated :
    f64.isNaN (convert f64 3 (f64.vecSum exSISD 3 [⟨false, f64.infMag - 1⟩, ⟨false, f64.infMag - 1⟩, f64.inf true] (dmsetzero 3))) = true ∧
    convert f64 3 (f64.vecSum exSISD 3 [f64.inf true, ⟨false, f64.infMag - 1⟩, ⟨false, f64.infMag - 1⟩] (dmsetzero 3)) = f64.inf true := by
  decide +kernel

/-- The hypotheses of the partial theorem are met, with blocks of two elements. -/
example : (∀ x ∈ [f64.pow2 900, f64.inf true, f64.pow2 3, f64.inf true, f64.pow2 (-7)], f64.Finite x → 1 ≤ f64.dindex x) ∧
    convert f64 3 (f64.vecSum ⟨2, 1, 2, 1, 1, false⟩ 3 [f64.pow2 900, f64.inf true, f64.pow2 3, f64.inf true, f64.pow2 (-7)] (dmsetzero 3)) = f64.inf true := by
  decide +kernel

end Repro
