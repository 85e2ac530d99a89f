import Verif.Complex
import Verif.PropsVec
import Verif.PropsGemm2
/-!
# Lemmas on the complex kernels
-/

namespace Repro
open Fmt
variable {F : Fmt}

theorem mul_one'' [F.OK] {x : Flt} (hx : F.Finite x) : F.mul x F.one = x := mul_one' hx

theorem toInt_zero [F.OK] : F.toInt zero = 0 := by
  have : F.val 0 = 0 := val_eq_zero.2 rfl
  unfold toInt zero; simp [this]

theorem mul_zero' [F.OK] {x : Flt} (hx : F.Finite x) : F.Finite (F.mul x zero) ∧ F.toInt (F.mul x zero) = 0 := by
  apply mul_exact hx zero_finite (r := 0) (m := 0) (e := 0)
  · rw [toInt_zero]; ring
  · simp
  · exact pow_pos' _
  · simp

/-- Adding a zero of either sign does not change the value. -/
theorem add_zero' [F.OK] {x z : Flt} (hx : F.Finite x) (hz : F.Finite z) (h0 : F.toInt z = 0) :
    F.Finite (F.add x z) ∧ F.toInt (F.add x z) = F.toInt x := by
  obtain ⟨m, e, h1, h2, -⟩ := F.val_decomp x.mag
  have := add_exact (F := F) hx hz (m := m) (e := e) (by rw [h0, add_zero, toInt_natAbs, h1]) h2 (by rw [← h1]; exact val_lt hx)
  rw [h0, add_zero] at this
  exact this

theorem kloop_zstep (x : Flt) (pri : List Flt) : F.zstep .plain x pri = F.kloop x pri := by
  cases pri <;> rfl

/-- A lane with the factors 1, 1, 0 deposits like one without factors. -/
theorem zstep_unit [F.OK] {fold k : Nat} (hfold : 2 ≤ fold) (hk1 : 1 ≤ k) (hk : k ≤ F.maxIndex) {x : Flt}
    (hx : F.Finite x) (hf : F.Fits (F.toInt x) k) {B : Nat → Int}
    (hB : ∀ j, F.Win (B j) ∧ F.Win (B j + F.slice (F.toInt x) j)) :
    F.zstep .unit x (F.priB fold k B) = F.priB fold k (fun j => B j + F.slice (F.toInt x) j) := by
  obtain ⟨n, rfl⟩ : ∃ n, fold = n + 2 := ⟨fold - 2, by omega⟩
  have hfin0 := fits0_finite (F := F) hx
  have hres := (resid_of_fits hk hf k (Nat.le_refl _)).symm
  have hbd : (F.toInt x).natAbs ≤ 2 ^ (F.uexp k + F.W - 1) := by
    rw [hres]; exact RB_all hfin0 k
  have hsl : rha (F.toInt x) (F.uexp k) = F.slice (F.toInt x) k := by
    show _ = rha (F.resid (F.toInt x) k) (F.uexp k)
    rw [← hres]
  have hge := uexp_ge (F := F) k
  have hue : F.uexp k ≤ F.emax - 2 := Nat.le_of_lt (uexp_emax hk1)
  have hw := hB k
  have hpri : ∀ b, F.mkPri k b = F.mkF (F.uexp k) (3 * 2 ^ (F.p - 2) + b) := by
    intro b; rw [mkPri_eq, sexp_pos hk1]
  have hst := step_eq (F := F) (u := F.uexp k) (by omega) hue hx hbd hw.1 (by rw [hsl]; exact hw.2)
  have hrem := step_rem (F := F) (u := F.uexp k) (by omega) hue hx hbd hw.1 (by rw [hsl]; exact hw.2)
  rw [hsl] at hst hrem
  rw [← hpri, ← hpri] at hst hrem
  have hq : F.Finite (F.sub (F.mkPri k (B k)) (F.mkPri k (B k + F.slice (F.toInt x) k))) := (sub_pri_off hw.1 hw.2).1
  unfold priB
  rw [List.range'_succ, List.map_cons, List.map_cons]
  unfold zstep
  dsimp only
  rw [mul_one'' hx, hst.2, mul_one'' hq]
  congr 1
  have hz := mul_zero' (F := F) hq
  have ha := add_zero' hrem.1 hz.1 hz.2
  rw [kloop_eq]
  refine depositLoop_eq (F.toInt x) hfin0 (n + 1) (k + 1) _ B (by omega) ha.1 ?_ (fun j _ _ => hB j)
  rw [ha.2, hrem.2]
  show _ = F.resid (F.toInt x) k - rha (F.resid (F.toInt x) k) (F.uexp k) * 2 ^ F.uexp k
  rw [← hres, hsl]

/-- The factors a lane of a part with top bin `k` may run with. -/
def ModeOK (k : Nat) (mode : Mode) : Prop := if k = 0 then mode = .comp else mode ≠ .comp

theorem zmode_ok {k : Nat} (other : Bool) : ModeOK k (zmode (decide (k = 0)) other) := by
  unfold ModeOK zmode
  by_cases h : k = 0
  · simp [h]
  · cases other <;> simp [h]

theorem zstep_eq [F.OK] {fold k : Nat} (hfold : 2 ≤ fold) (hk : k ≤ F.maxIndex) {mode : Mode} (hm : ModeOK k mode) {x : Flt}
    (hx : F.Finite x) (hf : F.Fits (F.toInt x) k) {B : Nat → Int}
    (hB : ∀ j, F.Win (B j) ∧ F.Win (B j + F.slice (F.toInt x) j)) :
    F.zstep mode x (F.priB fold k B) = F.priB fold k (fun j => B j + F.slice (F.toInt x) j) := by
  have hidx : F.dmindex0 (nth (F.priB fold k B) 0) = decide (k = 0) := by
    rw [nth_priB (by omega), Nat.add_zero, dmindex0_mkPri (hB k).1]
  have hni : F.isNaNInf (nth (F.priB fold k B) 0) = false := by
    rw [nth_priB (by omega), Nat.add_zero, mkPri_isNaNInf (hB k).1]
  have hd : F.kstep (decide (k = 0)) x (F.priB fold k B) = F.priB fold k (fun j => B j + F.slice (F.toInt x) j) := by
    rw [← hidx, kstep_eq hx hni]
    exact dmddeposit_eq hfold hk hx hf (fun j _ _ => hB j)
  unfold ModeOK at hm
  by_cases h0 : k = 0
  · rw [if_pos h0] at hm
    rw [hm, ← hd]
    unfold kstep
    rw [if_pos (by simp [h0])]
    cases F.priB fold k B with
    | nil => rfl
    | cons m ms => rfl
  · rw [if_neg h0] at hm
    cases mode with
    | comp => exact absurd rfl hm
    | plain =>
      rw [← hd, kloop_zstep]
      unfold kstep
      rw [if_neg (by simp [h0])]
    | unit => exact zstep_unit hfold (by omega) hk hx hf hB

theorem zstep_list [F.OK] {fold k : Nat} (hfold : 2 ≤ fold) (hk : k ≤ F.maxIndex) {mode : Mode} (hm : ModeOK k mode) :
    ∀ (xs : List Flt) (B : Nat → Int), (∀ x ∈ xs, F.Finite x ∧ F.Fits (F.toInt x) k) →
    (∀ j, |B j| + F.absTotal xs j < 2 ^ (F.p - 2)) →
    xs.foldl (fun s x => F.zstep mode x s) (F.priB fold k B) = F.priB fold k (fun j => B j + F.total xs j) := by
  intro xs
  induction xs with
  | nil => intro B _ _; simp [total_nil]
  | cons x xs ih =>
    intro B hx hB
    have hx0 := hx x List.mem_cons_self
    have hw : ∀ j, F.Win (B j) ∧ F.Win (B j + F.slice (F.toInt x) j) := by
      intro j
      have h := hB j
      rw [absTotal_cons] at h
      have h1 := absTotal_nonneg (F := F) xs j
      have h2 := abs_nonneg (F.slice (F.toInt x) j)
      have h3 := abs_add_le (B j) (F.slice (F.toInt x) j)
      exact ⟨win_of_abs (by omega), win_of_abs (by omega)⟩
    rw [List.foldl_cons, zstep_eq hfold hk hm hx0.1 hx0.2 hw, ih _ (fun z hz => hx z (List.mem_cons_of_mem _ hz))]
    · unfold priB
      apply map_range'_congr; intro j _ _; show F.mkPri j (B j + _ + _) = F.mkPri j (B j + _); rw [total_cons]; congr 1; ring
    · intro j
      have h := hB j
      rw [absTotal_cons] at h
      have h3 := abs_add_le (B j) (F.slice (F.toInt x) j)
      omega

theorem lanesZ_getD (mode : Mode) {n : Nat} (tr : List (Nat × Flt)) (pri : List Flt) {l : Nat} (hl : l < n) :
    (F.lanesZ mode n tr pri).getD l pri = (laneVals tr l).foldl (fun s x => F.zstep mode x s) pri := by
  unfold lanesZ
  rw [lanes_aux (F.zstep mode) pri tr _ l (by simpa using hl)]
  congr 1
  rw [List.getD_eq_getElem?_getD, List.getElem?_replicate_of_lt hl]; rfl

/-- Lanes and consolidation for any distribution of the numbers over the lanes. -/
theorem consolidateZ_eq [F.OK] {T : Tune} (h : T.OK F) {fold k n : Nat} (hfold : 2 ≤ fold) (hk : k ≤ F.maxIndex)
    {mode : Mode} (hm : ModeOK k mode) (hn : ∃ R, 1 ≤ R ∧ n = R * T.ts) {tr : List (Nat × Flt)} {vs : List Flt} {B : Nat → Int}
    (hl : ∀ d ∈ tr, d.1 < n) (hx : ∀ d ∈ tr, F.Finite d.2 ∧ F.Fits (F.toInt d.2) k)
    (hsum : ∀ g : Int → Int, g 0 = 0 → (tr.map (fun d => g (F.toInt d.2))).sum = (vs.map (fun x => g (F.toInt x))).sum)
    (hB : ∀ j, |B j| + F.absTotal vs j < 2 ^ (F.p - 2)) :
    F.consolidateZ T n (F.lanesZ mode n tr (F.priB fold k B)) (F.priB fold k B) = F.priB fold k (fun j => B j + F.total vs j) := by
  obtain ⟨a, ha⟩ := h.ts
  have hts : 1 ≤ T.ts := by rw [ha]; exact Nat.two_pow_pos a
  have hs0 : ∀ j, F.slice 0 j = 0 := by
    intro j; have := slice_zero (F := F) j; rwa [toInt_zero] at this
  have htot : ∀ j, sumTo (fun l => F.total (laneVals tr l) j) n = F.total vs j := by
    intro j
    have h1 := sumTo_lanes (fun x => F.slice (F.toInt x) j) tr n hl
    exact h1.trans (hsum (fun r => F.slice r j) (hs0 j))
  have habs : ∀ j, sumTo (fun l => F.absTotal (laneVals tr l) j) n = F.absTotal vs j := by
    intro j
    have h1 := sumTo_lanes (fun x => |F.slice (F.toInt x) j|) tr n hl
    exact h1.trans (hsum (fun r => |F.slice r j|) (by rw [hs0 j]; rfl))
  have hlane : ∀ l, l < n → (F.lanesZ mode n tr (F.priB fold k B)).getD l (F.priB fold k B)
      = F.priB fold k (fun j => B j + F.total (laneVals tr l) j) := by
    intro l hl'
    rw [lanesZ_getD _ _ _ hl']
    apply zstep_list hfold hk hm
    · intro x hxl
      obtain ⟨d, hd, e⟩ := lane_mem hxl
      rw [← e]; exact hx d hd
    · intro j
      have h1 := le_sumTo (f := fun l => F.absTotal (laneVals tr l) j) (fun l => absTotal_nonneg _ _) hl'
      have h2 := hB j
      rw [habs] at h1
      beta_reduce at h1
      omega
  unfold consolidateZ
  have hlen : (F.priB fold k B).length = fold := by simp [priB]
  rw [hlen]
  show _ = (List.range' k fold).map _
  rw [← range_map_shift]
  apply List.map_congr_left
  intro i hi
  have hi : i < fold := List.mem_range.1 hi
  have hs : ∀ l, l < n → nth ((F.lanesZ mode n tr (F.priB fold k B)).getD l (F.priB fold k B)) i
      = F.mkPri (k + i) (B (k + i) + F.total (laneVals tr l) (k + i)) := by
    intro l hl'
    rw [hlane l hl', nth_priB hi]
  have hbnd : |B (k + i)| + sumTo (fun l => |F.total (laneVals tr l) (k + i)|) n < 2 ^ (F.p - 2) := by
    have h1 : sumTo (fun l => |F.total (laneVals tr l) (k + i)|) n ≤ sumTo (fun l => F.absTotal (laneVals tr l) (k + i)) n :=
      sumTo_le (fun l _ => total_le_abs _ _)
    rw [habs] at h1
    have := hB (k + i); omega
  rw [nth_priB hi]
  beta_reduce
  rw [← htot (k + i)]
  obtain ⟨R, hR, hRe⟩ := hn
  split
  · rw [hRe] at hs hbnd ⊢
    exact consSIMD_eq hts hR hs hbnd
  · exact consSISD_eq (by rw [hRe]; exact Nat.mul_pos hR hts) hs hbnd

/-! ### the numbers a kernel loads -/

/-- The numbers of one part of a list of elements, element by element. -/
def partNums {α : Type} (e : Nat) (f : α → Nat → Flt) (es : List α) : List Flt := es.flatMap (fun a => (List.range e).map (f a))

theorem partNums_length {α : Type} (e : Nat) (f : α → Nat → Flt) (es : List α) : (partNums e f es).length = e * es.length := by
  induction es with
  | nil => simp [partNums]
  | cons a es ih =>
    unfold partNums at *
    rw [List.flatMap_cons, List.length_append, ih]; simp; ring

theorem partNums_append {α : Type} (e : Nat) (f : α → Nat → Flt) (es es' : List α) :
    partNums e f (es ++ es') = partNums e f es ++ partNums e f es' := by simp [partNums]

theorem mem_partNums {α : Type} {e : Nat} {f : α → Nat → Flt} {es : List α} {x : Flt} :
    x ∈ partNums e f es ↔ ∃ a ∈ es, ∃ h, h < e ∧ f a h = x := by
  simp [partNums]

theorem getD_list {α : Type} (es : List α) (z : α) : (List.range es.length).map (fun i => es.getD i z) = es := by
  apply List.ext_getElem
  · simp
  · intro i h1 h2
    simp only [List.getElem_map, List.getElem_range]
    rw [List.getD_eq_getElem?_getD, List.getElem?_eq_getElem h2]; rfl

/-- The elements loaded by a chunk. -/
def loadE {α : Type} (ts : Nat) (z : α) (es : List α) (c : Chunk) : List α :=
  if c.part then (List.range ts).map (fun l => if l < c.count then es.getD (c.off + l) z else z)
    else (List.range c.count).map (fun i => es.getD (c.off + i) z)

theorem loadZ_eq {α : Type} (ts e : Nat) (f : α → Nat → Flt) (z : α) (es : List α) (c : Chunk) :
    loadZ ts e f z es c = (List.range e).flatMap (fun h => (loadE ts z es c).map (fun a => f a h)) := rfl

theorem loadE_eq {α : Type} {ts mu : Nat} (z : α) (es : List α) {c : Chunk} (hc : c.Shaped ts mu) :
    loadE ts z es c = c.elems.map (fun i => es.getD i z) ++ (if c.part then List.replicate (ts - c.count) z else []) := by
  unfold loadE
  by_cases hp : c.part = true
  · rw [if_pos hp, if_pos hp]
    unfold Chunk.Shaped at hc
    rw [if_pos hp] at hc
    obtain ⟨d, hd⟩ : ∃ d, ts = c.count + d := ⟨ts - c.count, by omega⟩
    rw [hd, ← range_append', List.map_append, Nat.add_sub_cancel_left]
    congr 1
    · unfold Chunk.elems
      rw [List.range'_eq_map_range, List.map_map]
      apply List.map_congr_left
      intro l hl
      simp [List.mem_range.1 hl]
    · rw [List.range'_eq_map_range, List.map_map, List.eq_replicate_iff]
      refine ⟨by simp, ?_⟩
      intro w hw
      rw [List.mem_map] at hw
      obtain ⟨l, _, rfl⟩ := hw
      simp
  · rw [if_neg hp, if_neg hp, List.append_nil]
    unfold Chunk.elems
    rw [List.range'_eq_map_range, List.map_map]; rfl

theorem loadE_length {α : Type} {ts mu : Nat} (z : α) (es : List α) {c : Chunk} :
    (loadE ts z es c).length = if c.part then ts else c.count := by
  unfold loadE; split <;> simp

theorem flatMap_const_length {α β : Type} (L : List α) (g : α → List β) (w : Nat) (h : ∀ a, (g a).length = w) :
    (L.flatMap g).length = L.length * w := by
  induction L with
  | nil => simp
  | cons a L ih => rw [List.flatMap_cons, List.length_append, ih, h, List.length_cons]; ring

/-- The numbers dealt from one body are the numbers loaded. -/
theorem dealZ_vals {α : Type} {T : Tune} (h : T.OK F) (e : Nat) (f : α → Nat → Flt) (z : α) (es : List α) {c : Chunk}
    (hc : c.Shaped T.ts (T.pipe * T.unroll)) : (T.dealZ e f z es c).map Prod.snd = loadZ T.ts e f z es c := by
  unfold Tune.dealZ
  dsimp only
  rw [List.map_flatMap]
  simp only [List.map_map, Function.comp_def]
  rw [range_groups (fun q => nth (loadZ T.ts e f z es c) q)]
  have hlen : (loadZ T.ts e f z es c).length = (if c.part then 1 else max (c.count / T.pipe) 1) * (e * if c.part then T.ts else min c.count T.pipe) := by
    rw [loadZ_eq, flatMap_const_length _ _ (if c.part then T.ts else c.count) (by intro a; rw [List.length_map, loadE_length (mu := 0)]), List.length_range]
    by_cases hp : c.part = true
    · simp [hp]
    · simp only [Bool.not_eq_true] at hp
      have := groups_count h hc hp
      simp only [hp, Bool.false_eq_true, if_false]
      calc e * c.count = e * (max (c.count / T.pipe) 1 * min c.count T.pipe) := by rw [this]
        _ = _ := by ring
  rw [← hlen]
  exact nth_list _

theorem dealZ_lane {α : Type} {T : Tune} (h : T.OK F) (e : Nat) (f : α → Nat → Flt) (z : α) (es : List α) {c : Chunk} {d : Nat × Flt}
    (hd : d ∈ T.dealZ e f z es c) : d.1 < e * T.pipe := by
  unfold Tune.dealZ at hd
  dsimp only at hd
  rw [List.mem_flatMap] at hd
  obtain ⟨g, _, hd⟩ := hd
  rw [List.mem_map] at hd
  obtain ⟨l, hl, rfl⟩ := hd
  have h1 := List.mem_range.1 hl
  have h2 := h.tp
  have : e * (if c.part then T.ts else min c.count T.pipe) ≤ e * T.pipe := Nat.mul_le_mul_left _ (by split <;> omega)
  dsimp only; omega

theorem traceZ_lane {α : Type} {T : Tune} (h : T.OK F) (e : Nat) (f : α → Nat → Flt) (z : α) (es : List α) {d : Nat × Flt}
    (hd : d ∈ T.traceZ e f z es) : d.1 < e * T.pipe := by
  unfold Tune.traceZ at hd
  rw [List.mem_flatMap] at hd
  obtain ⟨c, _, hd⟩ := hd
  exact dealZ_lane h e f z es hd

theorem loadZ_mem {α : Type} {ts mu e : Nat} {f : α → Nat → Flt} {z : α} {es : List α} {n : Nat} (hn : n ≤ es.length) {s : LoopState}
    (hdone : LoopDone ts mu n s) {c : Chunk} (hc : c ∈ s.done) {x : Flt} (hx : x ∈ loadZ ts e f z es c) :
    x ∈ partNums e f es ∨ ∃ h, h < e ∧ x = f z h := by
  rw [loadZ_eq, List.mem_flatMap] at hx
  obtain ⟨q, hq, hx⟩ := hx
  have hq := List.mem_range.1 hq
  rw [List.mem_map] at hx
  obtain ⟨a, ha, rfl⟩ := hx
  rw [loadE_eq z es (hdone.shape c hc), List.mem_append] at ha
  rcases ha with ha | ha
  · left
    rw [List.mem_map] at ha
    obtain ⟨i, hi, rfl⟩ := ha
    have : i ∈ List.range n := by rw [← hdone.vis, List.mem_flatMap]; exact ⟨c, hc, hi⟩
    have hi' := List.mem_range.1 this
    rw [mem_partNums]
    refine ⟨es.getD i z, ?_, q, hq, rfl⟩
    rw [List.getD_eq_getElem?_getD, List.getElem?_eq_getElem (by omega)]
    exact List.getElem_mem _
  · right
    split at ha
    · exact ⟨q, hq, by rw [(List.mem_replicate.1 ha).2]⟩
    · simp at ha

theorem sum_flatMap {α : Type} (L : List α) (g : α → List Flt) (v : Flt → Int) :
    ((L.flatMap g).map v).sum = (L.map (fun a => ((g a).map v).sum)).sum := by
  induction L with
  | nil => rfl
  | cons a L ih => rw [List.flatMap_cons, List.map_append, List.sum_append, ih]; simp

theorem sum_swap {α : Type} (e : Nat) (f : α → Nat → Flt) (v : Flt → Int) (L : List α) :
    (((List.range e).flatMap (fun h => L.map (fun a => f a h))).map v).sum = ((partNums e f L).map v).sum := by
  induction L with
  | nil => rw [sum_flatMap]; simp [partNums]
  | cons a L ih =>
    have e1 : partNums e f (a :: L) = (List.range e).map (f a) ++ partNums e f L := by simp [partNums]
    rw [e1, List.map_append, List.sum_append, ← ih, sum_flatMap, sum_flatMap]
    have : ∀ M : List Nat, (M.map (fun h => (((a :: L).map (fun a => f a h)).map v).sum)).sum
        = ((M.map (f a)).map v).sum + (M.map (fun h => ((L.map (fun a => f a h)).map v).sum)).sum := by
      intro M
      induction M with
      | nil => simp
      | cons m M ihM =>
        rw [List.map_cons, List.map_cons, List.map_cons, List.map_cons, List.map_cons, List.sum_cons, List.sum_cons, List.sum_cons, ihM]
        simp only [List.map_cons, List.sum_cons]
        ring
    exact this _

/-- Sums over the numbers loaded are sums over the numbers of the elements, if the fill does not count. -/
theorem chunks_sum {α : Type} {ts mu e : Nat} (f : α → Nat → Flt) (z : α) (es : List α) (v : Flt → Int) (hz : ∀ h, v (f z h) = 0)
    {s : LoopState} (hdone : LoopDone ts mu es.length s) :
    ((s.done.flatMap (loadZ ts e f z es)).map v).sum = ((partNums e f es).map v).sum := by
  have key : ∀ cs : List Chunk, (∀ c ∈ cs, c.Shaped ts mu) →
      ((cs.flatMap (loadZ ts e f z es)).map v).sum = ((partNums e f ((cs.flatMap Chunk.elems).map (fun i => es.getD i z))).map v).sum := by
    intro cs
    induction cs with
    | nil => intro _; rfl
    | cons c cs ih =>
      intro hs
      rw [List.flatMap_cons, List.flatMap_cons, List.map_append, List.map_append, partNums_append, List.map_append, List.sum_append, List.sum_append,
        ih (fun w hw => hs w (List.mem_cons_of_mem _ hw))]
      congr 1
      rw [loadZ_eq, sum_swap, loadE_eq z es (hs c List.mem_cons_self), partNums_append, List.map_append, List.sum_append]
      split
      · have : ∀ n, ((partNums e f (List.replicate n z)).map v).sum = 0 := by
          intro n
          induction n with
          | zero => rfl
          | succ n ihn =>
            rw [List.replicate_succ]
            have e1 : partNums e f (z :: List.replicate n z) = (List.range e).map (f z) ++ partNums e f (List.replicate n z) := by simp [partNums]
            rw [e1, List.map_append, List.sum_append, ihn, List.map_map]
            have : ∀ M : List Nat, (M.map (v ∘ f z)).sum = 0 := by
              intro M
              induction M with
              | nil => rfl
              | cons m M ihM => rw [List.map_cons, List.sum_cons, ihM]; simp [hz]
            rw [this]; rfl
        rw [this]; ring
      · simp [partNums]
  rw [key _ hdone.shape, hdone.vis, getD_list]

theorem traceZ_vals {α : Type} {T : Tune} (h : T.OK F) (e : Nat) (f : α → Nat → Flt) (z : α) (es : List α) :
    (T.traceZ e f z es).map Prod.snd
      = (runUnrolled T.ts (T.pipe * T.unroll) es.length).done.flatMap (loadZ T.ts e f z es) := by
  unfold Tune.traceZ
  have hs := (tune_done h es.length).shape
  generalize (runUnrolled T.ts (T.pipe * T.unroll) es.length).done = cs at *
  induction cs with
  | nil => rfl
  | cons c cs ih =>
    rw [List.flatMap_cons, List.flatMap_cons, List.map_append, ih (fun w hw => hs w (List.mem_cons_of_mem _ hw)),
      dealZ_vals h e f z es (hs c List.mem_cons_self)]

/-- One part of a complex kernel adds the totals of the slices of its numbers. -/
theorem kernelZ_eq {α : Type} [F.OK] {T : Tune} (h : T.OK F) {fold k e : Nat} (he : 1 ≤ e) (hfold : 2 ≤ fold) (hk : k ≤ F.maxIndex)
    {mode : Mode} (hm : ModeOK k mode) {f : α → Nat → Flt} {z : α} (hz : ∀ q, (f z q).mag = 0) {es : List α} {B : Nat → Int}
    (hx : ∀ x ∈ partNums e f es, F.Finite x ∧ F.Fits (F.toInt x) k)
    (hB : ∀ j, |B j| + F.absTotal (partNums e f es) j < 2 ^ (F.p - 2)) :
    F.kernelZ T mode e f z es (F.priB fold k B) = F.priB fold k (fun j => B j + F.total (partNums e f es) j) := by
  obtain ⟨a, ha⟩ := h.ts
  obtain ⟨b, hb⟩ := h.pipe
  have hdone := tune_done h es.length
  have hz0 : ∀ q, F.toInt (f z q) = 0 := by
    intro q
    have : F.val 0 = 0 := val_eq_zero.2 rfl
    unfold toInt; rw [hz q, this]; simp
  have hfit0 : ∀ q, F.Finite (f z q) ∧ F.Fits (F.toInt (f z q)) k := by
    intro q
    have hf0 : F.Finite (f z q) := by
      unfold Finite; rw [hz q]; exact (zero_finite (F := F))
    refine ⟨hf0, fits_mono ?_ (fits_dindex hf0)⟩
    have : F.dindex (f z q) = F.maxIndex := (C10_index_special (F := F) (f z q)).1 (val_eq_zero.2 (hz q))
    omega
  unfold kernelZ
  apply consolidateZ_eq h hfold hk hm
  · refine ⟨e * 2 ^ (b - a), Nat.mul_pos he (Nat.two_pow_pos _), ?_⟩
    have := h.tp
    rw [ha, hb] at this
    have := (Nat.pow_le_pow_iff_right (by omega : 1 < 2)).1 this
    rw [ha, hb, Nat.mul_assoc, ← Nat.pow_add]; congr 2; omega
  · exact fun d hd => traceZ_lane h e f z es hd
  · intro d hd
    have : d.2 ∈ (T.traceZ e f z es).map Prod.snd := List.mem_map.2 ⟨d, hd, rfl⟩
    rw [traceZ_vals h, List.mem_flatMap] at this
    obtain ⟨c, hc, hdc⟩ := this
    rcases loadZ_mem (le_refl _) hdone hc hdc with h1 | ⟨q, _, h1⟩
    · exact hx _ h1
    · rw [h1]; exact hfit0 q
  · intro g hg
    have e1 : (T.traceZ e f z es).map (fun d => g (F.toInt d.2)) = ((T.traceZ e f z es).map Prod.snd).map (fun x => g (F.toInt x)) := by
      rw [List.map_map]; rfl
    rw [e1, traceZ_vals h]
    exact chunks_sum f z es (fun x => g (F.toInt x)) (fun q => by rw [hz0, hg]) hdone
  · exact hB

theorem endur_abs [F.OK] {B : Nat → Int} {n : Nat} {vs : List Flt} (h3 : ∀ j, (B j).natAbs < 2 ^ (F.p - 3) + n * 2 ^ (F.W - 1))
    (hn : n + vs.length ≤ F.endurance) (hx : ∀ x ∈ vs, F.Finite x) : ∀ j, |B j| + F.absTotal vs j < 2 ^ (F.p - 2) := by
  intro j
  have e1 := h3 j
  have e2 := absTotal_le hx j
  have e3 : (n + vs.length) * 2 ^ (F.W - 1) ≤ F.endurance * 2 ^ (F.W - 1) := Nat.mul_le_mul_right _ hn
  rw [endurance_eq, Nat.add_mul] at e3
  have e4 := two_p2 (F := F)
  rw [Int.abs_eq_natAbs]
  have c1 := cast_pow (F.p - 2)
  have c2 : ((vs.length * 2 ^ (F.W - 1) : Nat) : Int) = (vs.length : Int) * 2 ^ (F.W - 1) := by push_cast; rfl
  omega

/-- One part of a complex kernel is the library's deposits on any value within its endurance. -/
theorem Mid_kernelZ {α : Type} [F.OK] {T : Tune} (h : T.OK F) {fold n N k e : Nat} (he : 1 ≤ e) (hfold : 2 ≤ fold) {A : Nat → Int} {y : Binned}
    (hm : F.Mid fold n N k A y) {mode : Mode} (hmode : ModeOK k mode) {f : α → Nat → Flt} {z : α} (hz : ∀ q, (f z q).mag = 0) {es : List α}
    (hn : n + (partNums e f es).length ≤ F.endurance) (hx : ∀ x ∈ partNums e f es, F.Finite x ∧ k ≤ F.dindex x) :
    F.Mid fold (n + (partNums e f es).length) (N + (partNums e f es).length) k (fun j => A j + F.total (partNums e f es) j)
      ⟨F.kernelZ T mode e f z es y.pri, y.car⟩ := by
  have hd := Mid.deposits hfold (partNums e f es) hm hn hx
  have e1 : (⟨F.kernelZ T mode e f z es y.pri, y.car⟩ : Binned) = F.deposits (partNums e f es) y := by
    have h2 := deposits_car (F := F) (partNums e f es) y
    have h1 : F.kernelZ T mode e f z es y.pri = (F.deposits (partNums e f es) y).pri := by
      obtain ⟨B, C, Z, h1, h2, h3, h4, h5, h6⟩ := hm
      have hpri : y.pri = F.priB fold k B := by rw [h1]; rfl
      have hx' : ∀ x ∈ partNums e f es, F.Finite x ∧ F.Fits (F.toInt x) k :=
        fun x hxv => ⟨(hx x hxv).1, fits_mono (hx x hxv).2 (fits_dindex (hx x hxv).1)⟩
      have hB : ∀ j, |B j| + F.absTotal (partNums e f es) j < 2 ^ (F.p - 2) := endur_abs h3 hn (fun x hxv => (hx x hxv).1)
      rw [deposits_pri, hpri, kernelZ_eq h he hfold h5 hmode hz hx' hB, deposit_list hfold h5 _ _ hx' hB]
    rw [h1, ← h2]
  rw [e1]; exact hd

end Repro
