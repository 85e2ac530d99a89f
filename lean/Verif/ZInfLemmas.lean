import Verif.PropsSsqInf
import Verif.PropsZSsq
/-!
# Infinities and NaN in the kernels on complex data
-/

namespace Repro
open Fmt
variable {F : Fmt}

theorem kloop_len : ∀ (l : List Flt) (x : Flt), (F.kloop x l).length = l.length := by
  intro l
  induction l with
  | nil => intro _; rfl
  | cons m ms ih =>
    intro x
    cases ms with
    | nil => rfl
    | cons m' ms' => unfold kloop; dsimp only; rw [List.length_cons, ih]; rfl

theorem zstep_len (mode : Mode) (x : Flt) (pri : List Flt) : (F.zstep mode x pri).length = pri.length := by
  cases mode <;> cases pri <;> unfold zstep
  · rfl
  · exact kloop_len _ _
  · rfl
  · dsimp only; rw [List.length_cons, kloop_len]; rfl
  · rfl
  · dsimp only; rw [List.length_cons, kloop_len]; rfl

theorem zstep_nan (mode : Mode) {x : Flt} {pri : List Flt} (hl : 1 ≤ pri.length) (h : F.isNaN x = true ∨ F.isNaN (nth pri 0) = true) :
    F.isNaN (nth (F.zstep mode x pri) 0) = true := by
  cases pri with
  | nil => simp at hl
  | cons m ms =>
    have e : ∃ t, nth (F.zstep mode x (m :: ms)) 0 = F.add m (or1 t) ∧ (F.isNaN x = true → F.isNaN t = true) := by
      cases mode
      · refine ⟨x, ?_, id⟩
        unfold zstep
        cases ms <;> rfl
      · exact ⟨F.mul x F.one, rfl, mul_nan_left⟩
      · exact ⟨F.mul x F.compression, rfl, mul_nan_left⟩
    obtain ⟨t, e, ht⟩ := e
    rw [e]
    rcases h with h | h
    · exact add_nan_right (or1_nan (ht h))
    · exact add_nan_left h

theorem zsteps_nan (mode : Mode) : ∀ (xs : List Flt) {pri : List Flt}, 1 ≤ pri.length →
    ((∃ x ∈ xs, F.isNaN x = true) ∨ F.isNaN (nth pri 0) = true) →
    F.isNaN (nth (xs.foldl (fun s x => F.zstep mode x s) pri) 0) = true := by
  intro xs
  induction xs with
  | nil => intro pri _ h; simpa using h
  | cons x xs ih =>
    intro pri hl h
    rw [List.foldl_cons]
    apply ih (by rw [zstep_len]; exact hl)
    rcases h with ⟨z, hz, hn⟩ | h
    · rcases List.mem_cons.1 hz with e | e
      · right; subst e; exact zstep_nan mode hl (Or.inl hn)
      · left; exact ⟨z, e, hn⟩
    · right; exact zstep_nan mode hl (Or.inr h)

/-- If any lane's first primary is NaN, so is the consolidated one. -/
theorem consolidateZ_nan {T : Tune} (h : T.OK F) {R : Nat} (hR : 1 ≤ R) {pri : List Flt} (hl : 1 ≤ pri.length) {s : List (List Flt)} {l : Nat} (hlane : l < R * T.ts)
    (hv : F.isNaN (nth (s.getD l pri) 0) = true) : F.isNaN (nth (F.consolidateZ T (R * T.ts) s pri) 0) = true := by
  obtain ⟨a, ha⟩ := h.ts
  have hts : 1 ≤ T.ts := by rw [ha]; exact Nat.two_pow_pos a
  unfold consolidateZ
  have e0 : pri.length = (pri.length - 1) + 1 := by omega
  have hnth : ∀ f : Nat → Flt, nth ((List.range pri.length).map f) 0 = f 0 := by
    intro f; rw [e0, List.range_succ_eq_map]; rfl
  rw [hnth]
  split
  · have hdiv : R * T.ts / T.ts = R := Nat.mul_div_cancel _ (by omega)
    unfold consSIMD
    rw [hdiv]
    have hr : l / T.ts < R := Nat.div_lt_of_lt_mul (by rw [Nat.mul_comm]; exact hlane)
    have hi : l % T.ts < T.ts := Nat.mod_lt _ hts
    have hdm := Nat.div_add_mod l T.ts
    have hreg : F.isNaN ((List.range' 1 (R - 1)).foldl (fun a r => F.add a (F.sub (nth (s.getD (r * T.ts + l % T.ts) pri) 0) (nth pri 0)))
        (F.sub (nth (s.getD (l % T.ts) pri) 0) (if l % T.ts = 0 then zero else (nth pri 0)))) = true := by
      by_cases h0 : l / T.ts = 0
      · apply foldl_nan_start (fun r => F.sub (nth (s.getD (r * T.ts + l % T.ts) pri) 0) (nth pri 0))
        apply sub_nan_left
        rw [h0, Nat.mul_zero, Nat.zero_add] at hdm
        rw [hdm]; exact hv
      · apply foldl_nan_mem (fun r => F.sub (nth (s.getD (r * T.ts + l % T.ts) pri) 0) (nth pri 0)) _ (r := l / T.ts)
        · generalize l / T.ts = q at hr h0
          rw [List.mem_range']; exact ⟨q - 1, by omega, by omega⟩
        · apply sub_nan_left
          rw [Nat.mul_comm, hdm]; exact hv
    by_cases h0 : l % T.ts = 0
    · rw [h0] at hreg
      exact foldl_nan_start (fun i => (List.range' 1 (R - 1)).foldl (fun a r => F.add a (F.sub (nth (s.getD (r * T.ts + i) pri) 0) (nth pri 0)))
        (F.sub (nth (s.getD i pri) 0) (if i = 0 then zero else (nth pri 0)))) _ hreg
    · exact foldl_nan_mem (fun i => (List.range' 1 (R - 1)).foldl (fun a r => F.add a (F.sub (nth (s.getD (r * T.ts + i) pri) 0) (nth pri 0)))
        (F.sub (nth (s.getD i pri) 0) (if i = 0 then zero else (nth pri 0)))) _
        (r := l % T.ts) (by rw [List.mem_range']; exact ⟨l % T.ts - 1, by omega, by omega⟩) hreg
  · unfold consSISD
    by_cases h0 : l = 0
    · rw [h0] at hv
      exact foldl_nan_start (fun r => F.sub (nth (s.getD r pri) 0) (nth pri 0)) _ hv
    · exact foldl_nan_mem (fun r => F.sub (nth (s.getD r pri) 0) (nth pri 0)) _
        (r := l) (by rw [List.mem_range']; exact ⟨l - 1, by omega, by omega⟩) (sub_nan_left hv)

theorem traceZ_mem {α : Type} {T : Tune} (h : T.OK F) {e : Nat} {f : α → Nat → Flt} {z : α} {es : List α} {x : Flt} (hx : x ∈ partNums e f es) :
    ∃ d ∈ T.traceZ e f z es, d.2 = x := by
  have hdone := tune_done h es.length
  obtain ⟨a, ha, q, hq, rfl⟩ := mem_partNums.1 hx
  rw [← getD_list es z, List.mem_map] at ha
  obtain ⟨i, hi, rfl⟩ := ha
  rw [← hdone.vis, List.mem_flatMap] at hi
  obtain ⟨c, hc, hi⟩ := hi
  have hm : f (es.getD i z) q ∈ (T.dealZ e f z es c).map Prod.snd := by
    rw [dealZ_vals h e f z es (hdone.shape c hc), loadZ_eq, List.mem_flatMap]
    refine ⟨q, List.mem_range.2 hq, List.mem_map.2 ⟨es.getD i z, ?_, rfl⟩⟩
    rw [loadE_eq z es (hdone.shape c hc), List.mem_append]
    exact Or.inl (List.mem_map.2 ⟨i, hi, rfl⟩)
  obtain ⟨d, hd, e⟩ := List.mem_map.1 hm
  exact ⟨d, by unfold Tune.traceZ; rw [List.mem_flatMap]; exact ⟨c, hc, hd⟩, e⟩

/-- A NaN dealt to any lane, or already in the accumulator, reaches the first primary. -/
theorem kernelZ_nan {α : Type} {T : Tune} (h : T.OK F) {mode : Mode} {e : Nat} (he : 1 ≤ e) {f : α → Nat → Flt} {z : α} {es : List α} {pri : List Flt} (hl : 1 ≤ pri.length)
    (hx : (∃ x ∈ partNums e f es, F.isNaN x = true) ∨ F.isNaN (nth pri 0) = true) :
    F.isNaN (nth (F.kernelZ T mode e f z es pri) 0) = true := by
  obtain ⟨a, ha⟩ := h.ts
  obtain ⟨b, hb⟩ := h.pipe
  have hab : ∃ R, 1 ≤ R ∧ T.pipe = R * T.ts := by
    have := h.tp
    rw [ha, hb] at this
    have := (Nat.pow_le_pow_iff_right (by omega : 1 < 2)).1 this
    refine ⟨2 ^ (b - a), Nat.two_pow_pos _, ?_⟩
    rw [ha, hb, ← Nat.pow_add]; congr 1; omega
  obtain ⟨R, hR, hRe⟩ := hab
  have hts : 1 ≤ T.ts := by rw [ha]; exact Nat.two_pow_pos a
  have hRR : 1 ≤ e * R := Nat.mul_pos he hR
  have hee : e * T.pipe = (e * R) * T.ts := by rw [hRe]; exact (Nat.mul_assoc _ _ _).symm
  have hlanes : ∃ l, l < e * T.pipe ∧ F.isNaN (nth ((F.lanesZ mode (e * T.pipe) (T.traceZ e f z es) pri).getD l pri) 0) = true := by
    rcases hx with ⟨x, hx, hn⟩ | hn
    · obtain ⟨d, hd, hdx⟩ := traceZ_mem h (z := z) hx
      have hlane := traceZ_lane h e f z es hd
      refine ⟨d.1, hlane, ?_⟩
      rw [lanesZ_getD _ _ _ hlane]
      refine zsteps_nan _ _ hl (Or.inl ⟨x, ?_, hn⟩)
      unfold laneVals
      rw [List.mem_map]
      exact ⟨d, List.mem_filter.2 ⟨hd, by simp⟩, hdx⟩
    · have h0 : 0 < e * T.pipe := by rw [hee]; exact Nat.mul_pos hRR hts
      refine ⟨0, h0, ?_⟩
      rw [lanesZ_getD _ _ _ h0]
      exact zsteps_nan _ _ hl (Or.inr hn)
  obtain ⟨l, hl1, hl2⟩ := hlanes
  unfold kernelZ
  rw [hee] at hl1 hl2 ⊢
  exact consolidateZ_nan h hRR hl hl1 hl2

theorem kernelZ_len {α : Type} {T : Tune} {mode : Mode} {e : Nat} {f : α → Nat → Flt} {z : α} {es : List α} {pri : List Flt} :
    (F.kernelZ T mode e f z es pri).length = pri.length := by
  unfold kernelZ consolidateZ; rw [List.length_map, List.length_range]

/-- Merging when a side is infinite or NaN. -/
theorem madd_special [F.OK] {fold : Nat} {x y : Binned} (hy : 1 ≤ y.pri.length) (h : F.kind (nth x.pri 0) ≠ .fin ∨ F.kind (nth y.pri 0) ≠ .fin) :
    F.kind (nth (F.dmdmadd fold x y).pri 0) = (F.kind (nth y.pri 0)).add (F.kind (nth x.pri 0)) := by
  have zf : ∀ {a : Flt}, isZero a = true → F.kind a = .fin := by
    intro a ha
    by_contra hc
    rw [kind_not_zero hc] at ha; simp at ha
  unfold dmdmadd
  by_cases h1 : isZero (nth x.pri 0) = true
  · rw [if_pos h1, zf h1, Kind.add_fin]
  · rw [if_neg h1]
    by_cases h2 : isZero (nth y.pri 0) = true
    · rw [if_pos h2, zf h2, Kind.fin_add]
    · rw [if_neg h2]
      have hc : (F.isNaNInf (nth x.pri 0) || F.isNaNInf (nth y.pri 0)) = true := by
        rcases h with h | h
        · rw [isNaNInf_kind.2 h]; rfl
        · rw [isNaNInf_kind.2 h, Bool.or_true]
      rw [hc]
      simp only [if_true]
      cases hp : y.pri with
      | nil => rw [hp] at hy; simp at hy
      | cons m ms =>
        rw [hp] at h
        show F.kind (F.add m (nth x.pri 0)) = _
        rcases h with h | h
        · exact kind_add_right h
        · exact kind_add_left h

/-- `MAX` of the magnitudes of a block with infinities but no NaN. -/
theorem amax_pair_inf [F.OK] {T : Tune} (h : T.OK F) {es : List (Flt × Flt)} (hk : F.kinds ((parts es).map fabs) ≠ .fin)
    (hn : ¬ ∃ x ∈ parts es, F.isNaN x = true) :
    F.isInf (F.fmax (F.amaxZ T 1 zasumOp.fR zasumOp.zfill es) (F.amaxZ T 1 zasumOp.fI zasumOp.zfill es)) = true := by
  have hnn : ∀ x ∈ parts es, F.isNaN x = false := by
    intro x hx
    by_contra hc
    exact hn ⟨x, hx, by simpa using hc⟩
  have e0 : partNums 1 zasumOp.fR es = es.map (fun a => fabs a.1) := partNums_one _ _
  have e1 : partNums 1 zasumOp.fI es = es.map (fun a => fabs a.2) := partNums_one _ _
  have h0 : ∀ x ∈ partNums 1 zasumOp.fR es, F.isNaN x = false := by
    intro x hx
    rw [e0] at hx
    obtain ⟨a, ha, rfl⟩ := List.mem_map.1 hx
    exact hnn a.1 (mem_parts.2 ⟨a, ha, Or.inl rfl⟩)
  have h1 : ∀ x ∈ partNums 1 zasumOp.fI es, F.isNaN x = false := by
    intro x hx
    rw [e1] at hx
    obtain ⟨a, ha, rfl⟩ := List.mem_map.1 hx
    exact hnn a.2 (mem_parts.2 ⟨a, ha, Or.inr rfl⟩)
  rw [amaxZ_eq h zasumOp_ok.zR h0, amaxZ_eq h zasumOp_ok.zI h1, e0, e1, maxMag_map_fabs Prod.fst, maxMag_map_fabs Prod.snd]
  have hM : maxMag (parts es) ≤ F.infMag := maxMag_le (fun x hx => by have := hnn x hx; unfold isNaN at this; simpa using this)
  have hmax : maxMag (parts es) = max (maxMag (es.map Prod.fst)) (maxMag (es.map Prod.snd)) := by unfold parts; rw [maxMag_append]
  have hp := fmax_pos (F := F) hM (a := ⟨false, maxMag (es.map Prod.fst)⟩) (b := ⟨false, maxMag (es.map Prod.snd)⟩) ⟨rfl, by rw [hmax]; exact Nat.le_max_left _ _⟩
    ⟨rfl, by rw [hmax]; exact Nat.le_max_right _ _⟩
  have : ∃ x ∈ parts es, ¬ F.Finite x := by
    by_contra hc
    push_neg at hc
    apply hk
    rw [kinds_fin]
    intro x hx
    obtain ⟨z, hz, rfl⟩ := List.mem_map.1 hx
    exact hc z hz
  obtain ⟨x, hx, hf⟩ := this
  have hx1 := le_maxMag hx
  generalize F.fmax ⟨false, maxMag (es.map Prod.fst)⟩ ⟨false, maxMag (es.map Prod.snd)⟩ = r at *
  obtain ⟨s, m⟩ := r
  obtain ⟨⟨p1, p2⟩, p3, p4⟩ := hp
  have p2 : m ≤ maxMag (parts es) := p2
  have p3 : maxMag (es.map Prod.fst) ≤ m := p3
  have p4 : maxMag (es.map Prod.snd) ≤ m := p4
  unfold Finite at hf
  unfold isInf
  simp; omega

/-- The terms the exceptional loop adds, as a rearrangement of the parts. -/
theorem kinds_flat (es : List (Flt × Flt)) : F.kinds (es.flatMap (fun a => [fabs a.1, fabs a.2])) = F.kinds ((parts es).map fabs) := by
  rw [kinds_perm (perm_parts (fun a => fabs a.1) (fun a => fabs a.2) es)]
  unfold parts
  rw [List.map_append, List.map_map, List.map_map]
  exact kinds_perm List.perm_append_comm

theorem kinds_parts (as bs : List (Flt × Flt)) : F.kinds ((parts (as ++ bs)).map fabs) = (F.kinds ((parts as).map fabs)).add (F.kinds ((parts bs).map fabs)) := by
  rw [← kinds_flat, ← kinds_flat, ← kinds_flat, List.flatMap_append, kinds_append]

theorem flat_nonneg {es : List (Flt × Flt)} : ∀ x ∈ es.flatMap (fun a => [fabs a.1, fabs a.2]), x.neg = false := by
  intro x hx
  obtain ⟨a, _, hx⟩ := List.mem_flatMap.1 hx
  simp at hx
  rcases hx with rfl | rfl <;> rfl

end Repro
