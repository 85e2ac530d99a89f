import Verif.KernelLemmas
/-!
# C05: the generated deposit kernels store what depositing the elements one by one stores
-/

namespace Repro
open Fmt
variable {F : Fmt}

theorem nth_list (vs : List Flt) : (List.range vs.length).map (nth vs) = vs := by
  apply List.ext_getElem
  · simp
  · intro i h1 h2
    simp only [List.getElem_map, List.getElem_range]
    unfold nth
    rw [List.getD_eq_getElem?_getD, List.getElem?_eq_getElem h2]; rfl

theorem nth_mem {vs : List Flt} {i : Nat} (h : i < vs.length) : nth vs i ∈ vs := by
  unfold nth
  rw [List.getD_eq_getElem?_getD, List.getElem?_eq_getElem h]; exact List.getElem_mem h

theorem range_groups {α : Type} (f : Nat → α) (w q : Nat) :
    (List.range q).flatMap (fun g => (List.range w).map (fun l => f (g * w + l))) = (List.range (q * w)).map f := by
  induction q with
  | zero => simp
  | succ q ih =>
    rw [List.range_succ, List.flatMap_append, ih]
    simp only [List.flatMap_cons, List.flatMap_nil, List.append_nil]
    rw [Nat.add_mul, Nat.one_mul, ← range_append', List.map_append]
    congr 1
    rw [List.range'_eq_map_range, List.map_map]; rfl

/-- The groups of lanes of a complete body make up the body. -/
theorem groups_count {T : Tune} (h : T.OK F) {c : Chunk} (hc : c.Shaped T.ts (T.pipe * T.unroll)) (hp : c.part = false) :
    max (c.count / T.pipe) 1 * min c.count T.pipe = c.count := by
  obtain ⟨a, ha⟩ := h.pipe
  have hpp : 0 < T.pipe := by rw [ha]; exact Nat.two_pow_pos a
  have key : T.pipe ∣ c.count ∨ c.count ≤ T.pipe := by
    unfold Chunk.Shaped at hc
    rw [if_neg (by simp [hp])] at hc
    rcases hc.1 with e | ⟨⟨b, e⟩, _⟩
    · left; rw [e]; exact Nat.dvd_mul_right _ _
    · rw [e, ha]
      by_cases hab : a ≤ b
      · left; exact Nat.pow_dvd_pow _ hab
      · right; exact Nat.pow_le_pow_right (by omega) (by omega)
  have hc1 : 1 ≤ c.count := by
    unfold Chunk.Shaped at hc
    rw [if_neg (by simp [hp])] at hc
    rcases hc.1 with e | ⟨⟨b, e⟩, _⟩
    · rw [e]; exact Nat.mul_pos hpp h.unroll
    · rw [e]; exact Nat.two_pow_pos b
  rcases key with hd | hd
  · have hle := Nat.le_of_dvd hc1 hd
    have h1 : 1 ≤ c.count / T.pipe := (Nat.one_le_div_iff hpp).2 hle
    rw [Nat.max_eq_left h1, Nat.min_eq_right hle, Nat.div_mul_cancel hd]
  · rw [Nat.min_eq_left hd]
    by_cases he : c.count = T.pipe
    · rw [he, Nat.div_self hpp]; simp
    · rw [Nat.div_eq_of_lt (by omega)]; simp

/-- The values dealt from one body, in order: its elements, and zeros behind a partial load. -/
theorem deal_vals {T : Tune} (h : T.OK F) (vs : List Flt) {c : Chunk} (hc : c.Shaped T.ts (T.pipe * T.unroll)) :
    (T.deal vs c).map Prod.snd = c.elems.map (nth vs) ++ (if c.part then List.replicate (T.ts - c.count) zero else []) := by
  unfold Tune.deal
  by_cases hp : c.part = true
  · rw [if_pos hp, if_pos hp]
    unfold Chunk.Shaped at hc
    rw [if_pos hp] at hc
    obtain ⟨d, hd⟩ : ∃ d, T.ts = c.count + d := ⟨T.ts - c.count, by omega⟩
    rw [hd, ← range_append', List.map_append, List.map_append, Nat.add_sub_cancel_left]
    congr 1
    · unfold Chunk.elems
      rw [List.range'_eq_map_range, List.map_map, List.map_map]
      apply List.map_congr_left
      intro l hl
      simp [List.mem_range.1 hl]
    · rw [List.range'_eq_map_range, List.map_map, List.map_map, List.eq_replicate_iff]
      refine ⟨by simp, ?_⟩
      intro z hz
      rw [List.mem_map] at hz
      obtain ⟨l, _, rfl⟩ := hz
      simp
  · rw [if_neg hp, if_neg hp, List.append_nil]
    simp only [Bool.not_eq_true] at hp
    rw [List.map_flatMap]
    simp only [List.map_map, Function.comp_def]
    have := range_groups (fun e => nth vs (c.off + e)) (min c.count T.pipe) (max (c.count / T.pipe) 1)
    rw [this, groups_count h hc hp]
    unfold Chunk.elems
    rw [List.range'_eq_map_range, List.map_map]; rfl

theorem deal_lane {T : Tune} (h : T.OK F) (vs : List Flt) {c : Chunk} {d : Nat × Flt} (hd : d ∈ T.deal vs c) : d.1 < T.pipe := by
  unfold Tune.deal at hd
  split at hd
  · rw [List.mem_map] at hd
    obtain ⟨l, hl, rfl⟩ := hd
    have := List.mem_range.1 hl
    have := h.tp
    dsimp only; omega
  · rw [List.mem_flatMap] at hd
    obtain ⟨g, _, hd⟩ := hd
    rw [List.mem_map] at hd
    obtain ⟨l, hl, rfl⟩ := hd
    have := List.mem_range.1 hl
    dsimp only; omega

theorem tune_done {T : Tune} (h : T.OK F) (n : Nat) :
    LoopDone T.ts (T.pipe * T.unroll) n (runUnrolled T.ts (T.pipe * T.unroll) n) := by
  obtain ⟨a, ha⟩ := h.ts
  obtain ⟨b, hb⟩ := h.pipe
  apply runUnrolled_done (Or.inr ⟨a, ha⟩)
  · exact Nat.mul_pos (by rw [hb]; exact Nat.two_pow_pos b) h.unroll
  · left
    apply Nat.dvd_mul_right_of_dvd
    rw [ha, hb]
    apply Nat.pow_dvd_pow
    have := h.tp
    rw [ha, hb] at this
    exact (Nat.pow_le_pow_iff_right (by omega : 1 < 2)).1 this

theorem trace_lane {T : Tune} (h : T.OK F) (vs : List Flt) {d : Nat × Flt} (hd : d ∈ T.trace vs) : d.1 < T.pipe := by
  unfold Tune.trace at hd
  rw [List.mem_flatMap] at hd
  obtain ⟨c, _, hd⟩ := hd
  exact deal_lane h vs hd

theorem chunks_mem {T : Tune} {vs : List Flt} {cs : List Chunk} {n : Nat} (hn : n ≤ vs.length)
    (hv : cs.flatMap Chunk.elems = List.range n) {c : Chunk} (hc : c ∈ cs) {e : Nat} (he : e ∈ c.elems) : nth vs e ∈ vs := by
  have : e ∈ List.range n := by rw [← hv, List.mem_flatMap]; exact ⟨c, hc, he⟩
  have := List.mem_range.1 this
  exact nth_mem (by omega)

/-- Every value dealt is an element of the vector or zero. -/
theorem trace_mem {T : Tune} (h : T.OK F) (vs : List Flt) {d : Nat × Flt} (hd : d ∈ T.trace vs) : d.2 ∈ vs ∨ d.2 = zero := by
  unfold Tune.trace at hd
  rw [List.mem_flatMap] at hd
  obtain ⟨c, hc, hd⟩ := hd
  have hdone := tune_done h vs.length
  have : d.2 ∈ (T.deal vs c).map Prod.snd := List.mem_map.2 ⟨d, hd, rfl⟩
  rw [deal_vals h vs (hdone.shape c hc), List.mem_append] at this
  rcases this with h1 | h1
  · left
    rw [List.mem_map] at h1
    obtain ⟨e, he, h1⟩ := h1
    rw [← h1]
    exact chunks_mem (T := T) (le_refl _) hdone.vis hc he
  · right
    split at h1
    · exact (List.mem_replicate.1 h1).2
    · simp at h1

/-- Sums over the trace are sums over the vector, when zeros do not count. -/
theorem trace_sum {T : Tune} (h : T.OK F) (vs : List Flt) (g : Flt → Int) (hg : g zero = 0) :
    ((T.trace vs).map (fun d => g d.2)).sum = (vs.map g).sum := by
  have hdone := tune_done h vs.length
  have key : ∀ cs : List Chunk, (∀ c ∈ cs, c.Shaped T.ts (T.pipe * T.unroll)) →
      ((cs.flatMap (T.deal vs)).map (fun d => g d.2)).sum = (((cs.flatMap Chunk.elems).map (nth vs)).map g).sum := by
    intro cs
    induction cs with
    | nil => intro _; rfl
    | cons c cs ih =>
      intro hs
      rw [List.flatMap_cons, List.flatMap_cons, List.map_append, List.map_append, List.map_append, List.sum_append, List.sum_append,
        ih (fun z hz => hs z (List.mem_cons_of_mem _ hz))]
      congr 1
      have e : (T.deal vs c).map (fun d => g d.2) = ((T.deal vs c).map Prod.snd).map g := by rw [List.map_map]; rfl
      rw [e, deal_vals h vs (hs c List.mem_cons_self), List.map_append, List.sum_append]
      split
      · rw [List.map_replicate, hg]; simp
      · simp
  unfold Tune.trace
  rw [key _ hdone.shape, hdone.vis, nth_list]

theorem lane_mem {tr : List (Nat × Flt)} {l : Nat} {x : Flt} (h : x ∈ laneVals tr l) : ∃ d ∈ tr, d.2 = x := by
  unfold laneVals at h
  rw [List.mem_map] at h
  obtain ⟨d, hd, e⟩ := h
  exact ⟨d, (List.mem_filter.1 hd).1, e⟩

theorem slice_zero [F.OK] (j : Nat) : F.slice (F.toInt zero) j = 0 := by
  have h0 : F.toInt zero = 0 := by
    have : F.val 0 = 0 := val_eq_zero.2 rfl
    unfold toInt zero; simp [this]
  have := slice_neg (F := F) 0 j
  rw [h0]
  simp at this; omega

/-- The kernel adds the totals of the slices to the offsets of the primaries. -/
theorem kernel_eq [F.OK] {T : Tune} (h : T.OK F) {fold k : Nat} (hfold : 2 ≤ fold) (hk : k ≤ F.maxIndex)
    {vs : List Flt} {B : Nat → Int} (hx : ∀ x ∈ vs, F.Finite x ∧ F.Fits (F.toInt x) k)
    (hB : ∀ j, |B j| + F.absTotal vs j < 2 ^ (F.p - 2)) :
    F.kernel T vs (F.priB fold k B) = F.priB fold k (fun j => B j + F.total vs j) := by
  obtain ⟨a, ha⟩ := h.ts
  obtain ⟨b, hb⟩ := h.pipe
  have hpipe : 1 ≤ T.pipe := by rw [hb]; exact Nat.two_pow_pos b
  have hts : 1 ≤ T.ts := by rw [ha]; exact Nat.two_pow_pos a
  have hab : ∃ R, 1 ≤ R ∧ T.pipe = R * T.ts := by
    have := h.tp
    rw [ha, hb] at this
    have := (Nat.pow_le_pow_iff_right (by omega : 1 < 2)).1 this
    refine ⟨2 ^ (b - a), Nat.two_pow_pos _, ?_⟩
    rw [ha, hb, ← Nat.pow_add]; congr 1; omega
  -- per lane quantities
  let tr := T.trace vs
  have htot : ∀ j, sumTo (fun l => F.total (laneVals tr l) j) T.pipe = F.total vs j := by
    intro j
    have h1 := sumTo_lanes (fun x => F.slice (F.toInt x) j) tr T.pipe (fun d hd => trace_lane h vs hd)
    have h2 := trace_sum h vs (fun x => F.slice (F.toInt x) j) (slice_zero j)
    exact h1.trans h2
  have habs : ∀ j, sumTo (fun l => F.absTotal (laneVals tr l) j) T.pipe = F.absTotal vs j := by
    intro j
    have h1 := sumTo_lanes (fun x => |F.slice (F.toInt x) j|) tr T.pipe (fun d hd => trace_lane h vs hd)
    have h2 := trace_sum h vs (fun x => |F.slice (F.toInt x) j|) (by rw [slice_zero]; rfl)
    exact h1.trans h2
  have hfit0 : F.Finite zero ∧ F.Fits (F.toInt zero) k := by
    refine ⟨zero_finite, ?_⟩
    have := fits_dindex (F := F) (zero_finite (F := F))
    exact fits_mono (by
      have : F.dindex zero = F.maxIndex := (C10_index_special (F := F) zero).1 (val_eq_zero.2 rfl)
      omega) this
  have hlane : ∀ l, l < T.pipe → (F.lanes (decide (k = 0)) T.pipe tr (F.priB fold k B)).getD l (F.priB fold k B)
      = F.priB fold k (fun j => B j + F.total (laneVals tr l) j) := by
    intro l hl
    rw [lanes_getD _ _ _ hl]
    apply kstep_list hfold hk
    · intro x hxl
      obtain ⟨d, hd, e⟩ := lane_mem hxl
      rcases trace_mem h vs hd with h1 | h1
      · rw [← e]; exact hx _ h1
      · rw [← e, h1]; exact hfit0
    · intro j
      have h1 := le_sumTo (f := fun l => F.absTotal (laneVals tr l) j) (fun l => absTotal_nonneg _ _) hl
      have h2 := hB j
      rw [habs] at h1
      beta_reduce at h1
      omega
  have hwB : ∀ j, F.Win (B j) := fun j => win_of_abs (by have := hB j; have := absTotal_nonneg (F := F) vs j; omega)
  have hidx : F.dmindex0 (nth (F.priB fold k B) 0) = decide (k = 0) := by
    rw [nth_priB (by omega), Nat.add_zero, dmindex0_mkPri (hwB k)]
  unfold kernel
  rw [hidx]
  unfold consolidate
  have hlen : (F.priB fold k B).length = fold := by simp [priB]
  rw [hlen]
  show _ = (List.range' k fold).map _
  rw [← range_map_shift]
  apply List.map_congr_left
  intro i hi
  have hi : i < fold := List.mem_range.1 hi
  have hs : ∀ l, l < T.pipe → nth ((F.lanes (decide (k = 0)) T.pipe tr (F.priB fold k B)).getD l (F.priB fold k B)) i
      = F.mkPri (k + i) (B (k + i) + F.total (laneVals tr l) (k + i)) := by
    intro l hl
    rw [hlane l hl, nth_priB hi]
  have hbnd : |B (k + i)| + sumTo (fun l => |F.total (laneVals tr l) (k + i)|) T.pipe < 2 ^ (F.p - 2) := by
    have h1 : sumTo (fun l => |F.total (laneVals tr l) (k + i)|) T.pipe ≤ sumTo (fun l => F.absTotal (laneVals tr l) (k + i)) T.pipe :=
      sumTo_le (fun l _ => total_le_abs _ _)
    rw [habs] at h1
    have := hB (k + i); omega
  rw [nth_priB hi]
  beta_reduce
  rw [← htot (k + i)]
  split
  · obtain ⟨R, hR, hRe⟩ := hab
    rw [hRe] at hs hbnd ⊢
    exact consSIMD_eq hts hR hs hbnd
  · exact consSISD_eq hpipe hs hbnd

/-- Depositing a list into given primaries. -/
theorem deposit_list [F.OK] {fold k : Nat} (hfold : 2 ≤ fold) (hk : k ≤ F.maxIndex) :
    ∀ (xs : List Flt) (B : Nat → Int), (∀ x ∈ xs, F.Finite x ∧ F.Fits (F.toInt x) k) →
    (∀ j, |B j| + F.absTotal xs j < 2 ^ (F.p - 2)) →
    xs.foldl (fun s x => F.dmddeposit x s) (F.priB fold k B) = F.priB fold k (fun j => B j + F.total xs j) := by
  intro xs
  induction xs with
  | nil => intro B _ _; simp [total_nil]
  | cons x xs ih =>
    intro B hx hB
    have hx0 := hx x List.mem_cons_self
    have hw : ∀ j, F.Win (B j) ∧ F.Win (B j + F.slice (F.toInt x) j) := by
      intro j
      have h := hB j
      rw [absTotal_cons] at h
      have h1 := absTotal_nonneg (F := F) xs j
      have h2 := abs_nonneg (F.slice (F.toInt x) j)
      have h3 := abs_add_le (B j) (F.slice (F.toInt x) j)
      exact ⟨win_of_abs (by omega), win_of_abs (by omega)⟩
    rw [List.foldl_cons]
    have := dmddeposit_eq (F := F) (fold := fold) hfold hk hx0.1 hx0.2 (B := B) (fun j _ _ => hw j)
    unfold priB at *
    rw [this, ih _ (fun z hz => hx z (List.mem_cons_of_mem _ hz))]
    · apply map_range'_congr; intro j _ _; show F.mkPri j (B j + _ + _) = F.mkPri j (B j + _); rw [total_cons]; congr 1; ring
    · intro j
      have h := hB j
      rw [absTotal_cons] at h
      have h3 := abs_add_le (B j) (F.slice (F.toInt x) j)
      omega

theorem absTotal_le [F.OK] {xs : List Flt} (hx : ∀ x ∈ xs, F.Finite x) (j : Nat) :
    F.absTotal xs j ≤ xs.length * 2 ^ (F.W - 1) := by
  induction xs with
  | nil => simp [absTotal]
  | cons x xs ih =>
    rw [absTotal_cons, List.length_cons]
    have h1 := ih (fun z hz => hx z (List.mem_cons_of_mem _ hz))
    have h2 := slice_le (F := F) (fits0_finite (hx x List.mem_cons_self)) j
    have h3 : |F.slice (F.toInt x) j| ≤ 2 ^ (F.W - 1) := by
      rw [Int.abs_eq_natAbs]
      have := cast_pow (F.W - 1); omega
    push_cast
    rw [add_mul, one_mul]; omega

theorem deposits_pri (xs : List Flt) : ∀ y : Binned, (F.deposits xs y).pri = xs.foldl (fun s x => F.dmddeposit x s) y.pri := by
  induction xs with
  | nil => intro y; rfl
  | cons x xs ih => intro y; unfold Fmt.deposits at *; rw [List.foldl_cons, List.foldl_cons, ih]

theorem deposits_car (xs : List Flt) : ∀ y : Binned, (F.deposits xs y).car = y.car := by
  induction xs with
  | nil => intro y; rfl
  | cons x xs ih => intro y; unfold Fmt.deposits at *; rw [List.foldl_cons, ih]

/-- The kernel and the library's deposit agree on every value within its endurance. -/
theorem Mid_kernel [F.OK] {T : Tune} (h : T.OK F) {fold n N k : Nat} (hfold : 2 ≤ fold) {A : Nat → Int} {y : Binned}
    (hm : F.Mid fold n N k A y) {vs : List Flt} (hn : n + vs.length ≤ F.endurance)
    (hx : ∀ x ∈ vs, F.Finite x ∧ k ≤ F.dindex x) : F.kernel T vs y.pri = (F.deposits vs y).pri := by
  obtain ⟨B, C, Z, h1, h2, h3, h4, h5, h6⟩ := hm
  have hpri : y.pri = F.priB fold k B := by rw [h1]; rfl
  have hx' : ∀ x ∈ vs, F.Finite x ∧ F.Fits (F.toInt x) k := fun x hxv => ⟨(hx x hxv).1, fits_mono (hx x hxv).2 (fits_dindex (hx x hxv).1)⟩
  have hB : ∀ j, |B j| + F.absTotal vs j < 2 ^ (F.p - 2) := by
    intro j
    have e1 := h3 j
    have e2 := absTotal_le (fun x hxv => (hx x hxv).1) j
    have e3 : (n + vs.length) * 2 ^ (F.W - 1) ≤ F.endurance * 2 ^ (F.W - 1) := Nat.mul_le_mul_right _ hn
    rw [endurance_eq, Nat.add_mul] at e3
    have e4 := two_p2 (F := F)
    rw [Int.abs_eq_natAbs]
    have c1 := cast_pow (F.p - 2)
    have c2 : ((vs.length * 2 ^ (F.W - 1) : Nat) : Int) = (vs.length : Int) * 2 ^ (F.W - 1) := by push_cast; rfl
    omega
  rw [deposits_pri, hpri, kernel_eq h hfold h5 hx' hB, deposit_list hfold h5 vs B hx' hB]

/-- **C05.** For every setting of the tuning parameters, scalar or vector code: running a generated deposit
kernel on the primaries of a binned value (any legal program `h`, updated with a bound, with deposits
`xs` pending) stores bit for bit the primaries obtained by depositing the elements one after the other,
provided the endurance is respected. -/
theorem C05_kernel [F.OK] {T : Tune} (hT : T.OK F) {fold : Nat} (hfold : 2 ≤ fold) {h : Hist} {b : Flt} {xs vs : List Flt}
    (ho : Open F fold h b (xs ++ vs)) :
    F.kernel T vs (openVal F fold h b xs).pri = (openVal F fold h b (xs ++ vs)).pri := by
  have hl := ho.endurance
  have hc := ho.capacity
  rw [List.length_append] at hl hc
  have ho' : Open F fold h b xs :=
    ⟨ho.legal, fun x hx => ho.bounded x (List.mem_append_left _ hx), by omega, by omega⟩
  have hm := open_mid hfold ho'
  rw [Mid_kernel hT hfold hm hl]
  · unfold openVal Fmt.deposits; rw [List.foldl_append]
  · intro x hx
    have := ho.bounded x (List.mem_append_right _ hx)
    have h2 := dindex_bound this.1 this.2
    rw [minIndex_cons]
    exact ⟨this.1, by omega⟩

/-- The default AVX tuning shape: 4 lanes per register, 2 registers, unroll 2; and a scalar one. -/
def exAVX : Tune := ⟨2048, 4, 8, 2, 8, true⟩
def exSISD : Tune := ⟨32, 1, 4, 3, 3, false⟩

theorem exAVX_ok : exAVX.OK f64 :=
  ⟨by decide, by decide, ⟨2, rfl⟩, ⟨3, rfl⟩, by decide, by decide, by decide, by decide, by decide⟩

theorem exSISD_ok : exSISD.OK f64 :=
  ⟨by decide, by decide, ⟨0, rfl⟩, ⟨2, rfl⟩, by decide, by decide, by decide, by decide, fun _ => rfl⟩

/-- 23 numbers of mixed sizes: a complete body, a body of one register, a partial load. -/
def exVs : List Flt := (List.range 23).map (fun i => ⟨i % 3 == 0, f64.infMag - 2 ^ 56 + 12345678901 * i⟩)

example : Open f64 3 .zero (f64.inf false) ([f64.pow2 3] ++ exVs) ∧
    f64.kernel exAVX exVs (openVal f64 3 .zero (f64.inf false) [f64.pow2 3]).pri
      = f64.kernel exSISD exVs (openVal f64 3 .zero (f64.inf false) [f64.pow2 3]).pri := by
  refine ⟨⟨trivial, ?_, ?_, ?_⟩, ?_⟩ <;> decide +kernel

end Repro
