import Verif.ZSsqMerge
/-!
# C51: scaled sums of squares and norms of complex vectors
-/

namespace Repro
open Fmt
variable {F : Fmt}

/-- The real numbers a complex vector consists of. -/
def parts (es : List (Flt × Flt)) : List Flt := es.map Prod.fst ++ es.map Prod.snd

theorem parts_length (es : List (Flt × Flt)) : (parts es).length = 2 * es.length := by
  unfold parts; rw [List.length_append, List.length_map, List.length_map]; omega

theorem mem_parts {es : List (Flt × Flt)} {x : Flt} : x ∈ parts es ↔ ∃ a ∈ es, x = a.1 ∨ x = a.2 := by
  unfold parts
  rw [List.mem_append, List.mem_map, List.mem_map]
  constructor
  · rintro (⟨a, h, rfl⟩ | ⟨a, h, rfl⟩)
    · exact ⟨a, h, Or.inl rfl⟩
    · exact ⟨a, h, Or.inr rfl⟩
  · rintro ⟨a, h, rfl | rfl⟩
    · exact Or.inl ⟨a, h, rfl⟩
    · exact Or.inr ⟨a, h, rfl⟩

theorem parts_append_max (as bs : List (Flt × Flt)) : maxMag (parts (as ++ bs)) = max (maxMag (parts as)) (maxMag (parts bs)) := by
  unfold parts
  rw [List.map_append, List.map_append, maxMag_append, maxMag_append, maxMag_append, maxMag_append, maxMag_append]
  omega

theorem maxMag_map_fabs (f : Flt × Flt → Flt) (es : List (Flt × Flt)) : maxMag (es.map (fun a => fabs (f a))) = maxMag (es.map f) := by
  induction es with
  | nil => rfl
  | cons e es ih => unfold maxMag at *; rw [List.map_cons, List.map_cons, List.foldr_cons, List.foldr_cons, ih]; rfl

/-- `MAX` of the two largest magnitudes. -/
theorem amax_top [F.OK] {T : Tune} (h : T.OK F) {es : List (Flt × Flt)} (hf : ∀ x ∈ parts es, F.Finite x) :
    F.fmax (F.amaxZ T 1 zasumOp.fR zasumOp.zfill es) (F.amaxZ T 1 zasumOp.fI zasumOp.zfill es) = top (maxMag (parts es)) := by
  have e0 : partNums 1 zasumOp.fR es = es.map (fun a => fabs a.1) := partNums_one _ _
  have e1 : partNums 1 zasumOp.fI es = es.map (fun a => fabs a.2) := partNums_one _ _
  have h0 : ∀ x ∈ partNums 1 zasumOp.fR es, F.Finite x := by
    intro x hx
    rw [e0] at hx
    obtain ⟨a, ha, rfl⟩ := List.mem_map.1 hx
    exact hf a.1 (mem_parts.2 ⟨a, ha, Or.inl rfl⟩)
  have h1 : ∀ x ∈ partNums 1 zasumOp.fI es, F.Finite x := by
    intro x hx
    rw [e1] at hx
    obtain ⟨a, ha, rfl⟩ := List.mem_map.1 hx
    exact hf a.2 (mem_parts.2 ⟨a, ha, Or.inr rfl⟩)
  rw [amaxZ_eq h zasumOp_ok.zR (fun x hx => finite_not_nan (h0 x hx)), amaxZ_eq h zasumOp_ok.zI (fun x hx => finite_not_nan (h1 x hx)), e0, e1,
    maxMag_map_fabs Prod.fst, maxMag_map_fabs Prod.snd]
  have hM : maxMag (parts es) ≤ F.infMag := maxMag_le (fun x hx => Nat.le_of_lt (hf x hx))
  have hmax : maxMag (parts es) = max (maxMag (es.map Prod.fst)) (maxMag (es.map Prod.snd)) := by unfold parts; rw [maxMag_append]
  have hp := fmax_pos (F := F) hM (a := ⟨false, maxMag (es.map Prod.fst)⟩) (b := ⟨false, maxMag (es.map Prod.snd)⟩) ⟨rfl, by rw [hmax]; exact Nat.le_max_left _ _⟩
    ⟨rfl, by rw [hmax]; exact Nat.le_max_right _ _⟩
  generalize F.fmax ⟨false, maxMag (es.map Prod.fst)⟩ ⟨false, maxMag (es.map Prod.snd)⟩ = r at *
  obtain ⟨s, m⟩ := r
  obtain ⟨⟨p1, p2⟩, p3, p4⟩ := hp
  have p1 : s = false := p1
  have p2 : m ≤ maxMag (parts es) := p2
  have p3 : maxMag (es.map Prod.fst) ≤ m := p3
  have p4 : maxMag (es.map Prod.snd) ≤ m := p4
  rw [p1, show m = maxMag (parts es) by omega]

/-- The complex temporary after the elements `ps`. -/
def ZState (F : Fmt) (fold d : Nat) (ps : List (Flt × Flt)) (S : Flt) (s : Binned × Binned) : Prop :=
  (ps = [] ∧ S = zero ∧ s = (dmsetzero fold, dmsetzero fold)) ∨
  (ps ≠ [] ∧ S = F.dscale (top (maxMag (parts ps))) ∧ SsqM F fold d (ps.map Prod.fst) (maxMag (parts ps)) s.1 ∧
    SsqM F fold d (ps.map Prod.snd) (maxMag (parts ps)) s.2)

theorem parts_ne {es : List (Flt × Flt)} (h : es ≠ []) : parts es ≠ [] := by
  intro hc
  have := congrArg List.length hc
  rw [parts_length, List.length_nil] at this
  exact h (List.eq_nil_of_length_eq_zero (by omega))

theorem sq_zero_mag [F.OK] {S : Flt} {n m : Nat} (hS : F.IsScale S n m) : (F.sq S zero).mag = 0 := by
  have e : ∀ {a : Flt}, F.Finite a → (F.mul zero a).mag = 0 := by
    intro a ha
    have h := mul_fin (F := F) (x := zero) (y := a) zero_finite ha
    rw [h]
    have : F.val (zero : Flt).mag = 0 := by show F.val 0 = 0; unfold val; simp
    rw [this]; simp [roundMag, rne]
  unfold Fmt.sq
  dsimp only
  have h1 := e hS.ifin
  generalize F.mul zero (F.div F.one S) = t at *
  obtain ⟨s, m⟩ := t
  have h1 : m = 0 := h1
  subst h1
  have hf : F.Finite (⟨s, 0⟩ : Flt) := by
    have := zero_finite (F := F); exact this
  have h := mul_fin (F := F) (x := ⟨s, 0⟩) (y := ⟨s, 0⟩) hf hf
  rw [h]
  have : F.val 0 = 0 := by unfold val; simp
  dsimp only
  rw [this]; simp [roundMag, rne]

/-- The kernel on one part. -/
theorem SsqM.kernel [F.OK] {T : Tune} (hT : T.OK F) {fold d : Nat} (hfold : 2 ≤ fold) {us : List Flt} {μ : Nat} {y : Binned}
    (h : SsqM F fold d us μ y) {b : List (Flt × Flt)} (g : Flt × Flt → Flt) (hg : g (zero, zero) = zero) (hb : ∀ a ∈ b, (g a).mag ≤ μ) (hd : d + b.length ≤ F.endurance) (z : Bool) :
    SsqM F fold (d + b.length) (us ++ b.map g) μ
      ⟨F.kernelZ T (zmode (F.dmindex0 (nth y.pri 0)) z) 1 (fun a _ => F.sq (F.dscale (top μ)) (g a)) (zero, zero) b y.pri, y.car⟩ := by
  obtain ⟨fin, le, mid⟩ := h
  obtain ⟨n, m, z1, i1, v1, w1⟩ := scale_of fin
  have epn : partNums 1 (fun a _ => F.sq (F.dscale (top μ)) (g a)) b = (b.map g).map (F.sq (F.dscale (top μ))) := by
    rw [partNums_one, List.map_map]; rfl
  have hle : ∀ x ∈ b.map g, x.mag ≤ μ := by
    intro x hx
    obtain ⟨a, ha, rfl⟩ := List.mem_map.1 hx
    exact hb a ha
  have hk := Mid_kernelZ hT (Nat.le_refl 1) hfold mid (zmode_ok z) (es := b) (z := (zero, zero)) (f := fun a _ => F.sq (F.dscale (top μ)) (g a))
    (fun q => by rw [hg]; exact sq_zero_mag i1)
    (by rw [partNums_length]; omega) (by rw [epn]; exact sq_le_facts i1 fin v1 hle)
  rw [Mid_index0 hfold mid (by omega)]
  rw [epn] at hk
  refine ⟨fin, ?_, ?_⟩
  · intro x hx
    rcases List.mem_append.1 hx with hx | hx
    · exact le x hx
    · exact hle x hx
  · rw [List.length_map, List.length_map] at hk
    rw [List.length_append, List.length_map]
    have e : F.total ((us ++ b.map g).map (F.sq (F.dscale (top μ)))) = fun j => F.total (us.map (F.sq (F.dscale (top μ)))) j + F.total ((b.map g).map (F.sq (F.dscale (top μ)))) j := by
      funext j; rw [List.map_append, total_append]
    rw [e]; exact hk

/-- One block of the loop. -/
theorem ZState.step [F.OK] {T : Tune} (hT : T.OK F) {fold d : Nat} {ps b : List (Flt × Flt)} {S : Flt} {s : Binned × Binned} (hfold : 2 ≤ fold)
    (hJ : F.ssqHi + fold ≤ F.ssqJ + 1) (h : ZState F fold d ps S s)
    (hb : b ≠ []) (hbf : ∀ x ∈ parts b, F.Finite x) (hd : d + b.length ≤ F.endurance) :
    let amax : Flt := top (maxMag (parts b))
    let new := F.dscale amax
    let s := if F.lt S new && F.lt zero S then F.zmdrescale fold new S s else s
    let S := if F.lt S new then new else S
    let a := F.div amax S
    let s0 := F.dmdupdate fold (F.mul a a) s.1
    let s1 := F.dmdupdate fold (F.mul a a) s.2
    let z0 := F.dmindex0 (nth s0.pri 0)
    let z1 := F.dmindex0 (nth s1.pri 0)
    let O := F.zssqOp S
    ZState F fold (d + b.length) (ps ++ b) S
      (⟨F.kernelZ T (zmode z0 z1) 1 O.fR O.zfill b s0.pri, s0.car⟩, ⟨F.kernelZ T (zmode z1 z0) 1 O.fI O.zfill b s1.pri, s1.car⟩) := by
  dsimp only
  have hM := maxMag_finite (parts_ne hb) hbf
  obtain ⟨n, m, z, i1, v1, w1⟩ := scale_of hM
  have hbm : ∀ a ∈ b, a.1.mag ≤ maxMag (parts b) ∧ a.2.mag ≤ maxMag (parts b) := fun a ha =>
    ⟨le_maxMag (mem_parts.2 ⟨a, ha, Or.inl rfl⟩), le_maxMag (mem_parts.2 ⟨a, ha, Or.inr rfl⟩)⟩
  have hne : ps ++ b ≠ [] := by simp [hb]
  have mm := parts_append_max ps b
  rcases h with ⟨rfl, rfl, rfl⟩ | ⟨hps, hS, h0, h1⟩
  · have hz0 : F.lt zero zero = false := by unfold lt; simp
    rw [hz0, scale_pos hM]
    simp only [Bool.and_false, Bool.false_eq_true, if_false, if_true]
    rw [sq_div i1 hM rfl v1]
    have hm : F.Mid fold d ([] : List Flt).length (F.dindex (F.sq (F.dscale (top (maxMag (parts b)))) (top (maxMag (parts b))))) (F.total (([] : List Flt).map (F.sq (F.dscale (top (maxMag (parts b)))))))
        (F.dmdupdate fold (F.sq (F.dscale (top (maxMag (parts b)))) (top (maxMag (parts b)))) (dmsetzero fold)) :=
      (mid_empty (F := F)).mono (by omega) (by simp)
    have hs : SsqM F fold d [] (maxMag (parts b)) (F.dmdupdate fold (F.sq (F.dscale (top (maxMag (parts b)))) (top (maxMag (parts b)))) (dmsetzero fold)) :=
      ⟨hM, by simp, hm⟩
    rw [List.nil_append]
    refine Or.inr ⟨hb, rfl, ?_, ?_⟩
    · exact hs.kernel hT hfold (b := b) Prod.fst rfl (fun a ha => (hbm a ha).1) hd _
    · exact hs.kernel hT hfold (b := b) Prod.snd rfl (fun a ha => (hbm a ha).2) hd _
  · have hP := h0.fin
    obtain ⟨n', m', z', i2, v2, w2⟩ := scale_of hP
    have hmax := dscale_max hP hM
    subst hS
    rw [scale_pos hP]
    by_cases hlt : F.lt (F.dscale (top (maxMag (parts ps)))) (F.dscale (top (maxMag (parts b)))) = true
    · rw [if_pos hlt] at hmax
      rw [hlt]
      simp only [Bool.and_self, if_true]
      rw [sq_div i1 hM rfl v1]
      have hs1 : s = (s.1, s.2) := rfl
      rw [hs1]
      obtain ⟨hlt', r0, r1⟩ := SsqM.zrescale h0 h1 (by omega) hJ (by omega) hM hlt
      rw [Nat.max_eq_right (Nat.le_of_lt hlt')] at mm
      unfold ZState
      rw [mm, List.map_append, List.map_append]
      exact Or.inr ⟨hne, rfl, r0.kernel hT hfold (b := b) Prod.fst rfl (fun a ha => (hbm a ha).1) hd _,
        r1.kernel hT hfold (b := b) Prod.snd rfl (fun a ha => (hbm a ha).2) hd _⟩
    · have hlt' : F.lt (F.dscale (top (maxMag (parts ps)))) (F.dscale (top (maxMag (parts b)))) = false := by simpa using hlt
      rw [if_neg hlt] at hmax
      rw [hlt']
      simp only [Bool.false_and, Bool.false_eq_true, if_false]
      have hv := scale_ge hP hM i2 hlt'
      rw [sq_div i2 hM rfl hv]
      have upd : ∀ {us : List Flt} {y : Binned}, SsqM F fold d us (maxMag (parts ps)) y →
          SsqM F fold d us (max (maxMag (parts ps)) (maxMag (parts b))) (F.dmdupdate fold (F.sq (F.dscale (top (maxMag (parts ps)))) (top (maxMag (parts b)))) y) := by
        intro us y h
        refine ⟨top_max hP hM, fun x hx => Nat.le_trans (h.le x hx) (Nat.le_max_left _ _), ?_⟩
        rw [hmax, ← dindex_sq_max i2 hP hM v2 hv]
        exact h.mid.update (by omega) (by omega)
      have hbm' : ∀ a ∈ b, a.1.mag ≤ max (maxMag (parts ps)) (maxMag (parts b)) ∧ a.2.mag ≤ max (maxMag (parts ps)) (maxMag (parts b)) :=
        fun a ha => ⟨Nat.le_trans (hbm a ha).1 (Nat.le_max_right _ _), Nat.le_trans (hbm a ha).2 (Nat.le_max_right _ _)⟩
      unfold ZState
      rw [mm, List.map_append, List.map_append, hmax]
      have k0 := (upd h0).kernel hT hfold (b := b) Prod.fst rfl (fun a ha => (hbm' a ha).1) hd
        (F.dmindex0 (nth (F.dmdupdate fold (F.sq (F.dscale (top (maxMag (parts ps)))) (top (maxMag (parts b)))) s.2).pri 0))
      have k1 := (upd h1).kernel hT hfold (b := b) Prod.snd rfl (fun a ha => (hbm' a ha).2) hd
        (F.dmindex0 (nth (F.dmdupdate fold (F.sq (F.dscale (top (maxMag (parts ps)))) (top (maxMag (parts b)))) s.1).pri 0))
      rw [hmax] at k0 k1
      exact Or.inr ⟨hne, rfl, k0, k1⟩

/-- Merging the temporary into the result. -/
theorem zssqEnd_spec [F.OK] {fold d : Nat} {ps : List (Flt × Flt)} {S : Flt} {s : Binned × Binned} (h : ZState F fold d ps S s) (hfold : 2 ≤ fold)
    (hJ : F.ssqHi + fold ≤ F.ssqJ + 1) (hd : d ≤ F.endurance) {qs : List Flt} (hqs : ∀ x ∈ qs, F.Finite x) (hpf : ∀ x ∈ parts ps, F.Finite x)
    (hN : qs.length + 2 * ps.length ≤ F.capacity) :
    F.zssqEnd fold S s (ssqSpec F fold qs).1 (ssqSpec F fold qs).2 = ssqSpec F fold (qs ++ parts ps) := by
  have fin : ∀ {l : List Flt}, (∀ x ∈ l, F.Finite x) → (if F.isNaNInf (nth (ssqSpec F fold l).2.pri 0) then F.dscale F.one else (ssqSpec F fold l).1, (ssqSpec F fold l).2) = ssqSpec F fold l := by
    intro l hl
    by_cases h0 : l = []
    · subst h0
      have e : nth (dmsetzero fold).pri 0 = zero := by unfold dmsetzero; exact nth_setzero fold
      rw [C29_start]
      dsimp only
      rw [e, isNaNInf_false zero_finite]
      rfl
    · have := (SsqState.of_spec (F := F) (fold := fold) h0 hl).mid.finite (by omega) (by omega)
      rw [this]; rfl
  rcases h with ⟨rfl, rfl, rfl⟩ | ⟨hps, hS, h0, h1⟩
  · have hren : F.dmrenorm (dmsetzero fold) = dmsetzero fold := by
      unfold dmrenorm dmsetzero; dsimp only; rw [nth_setzero]; rfl
    have hm := C29_merge (F := F) hfold hJ (xs := []) (ys := qs) (by simp) hqs (by simpa using hN)
    rw [C29_start, List.nil_append] at hm
    unfold zssqEnd
    dsimp only at hm ⊢
    rw [hren, hm, hm]
    have : qs ++ parts [] = qs := by simp [parts]
    rw [this]
    exact fin hqs
  · have l1 : (ps.map Prod.fst).length = ps.length := List.length_map _
    have l2 : (ps.map Prod.snd).length = ps.length := List.length_map _
    have e0 := h0.renorm (by omega) hd (by rw [l1]; omega)
    have e1 := h1.renorm (by omega) hd (by rw [l2]; omega)
    have hf := h0.fin
    have hle0 := h0.le
    have hle1 := h1.le
    have hall : ∀ x ∈ qs ++ parts ps, F.Finite x := by
      intro x hx
      rcases List.mem_append.1 hx with h | h
      · exact hqs x h
      · exact hpf x h
    have hperm : (ps.map Prod.snd ++ (ps.map Prod.fst ++ qs)).Perm (qs ++ parts ps) := by
      unfold parts
      refine List.perm_append_comm.trans ?_
      rw [← List.append_assoc]
      exact List.Perm.append_right _ List.perm_append_comm
    have hallne : qs ++ parts ps ≠ [] := by
      intro hc
      exact parts_ne hps (List.append_eq_nil_iff.1 hc).2
    have final : ∀ {μ : Nat}, μ = maxMag (qs ++ parts ps) → ssqM F fold μ (ps.map Prod.snd ++ (ps.map Prod.fst ++ qs)) = ssqSpec F fold (qs ++ parts ps) := by
      intro μ hμ
      rw [← ssqSpec_perm hperm, ssqSpec_eq_M (by intro hc; rw [hc] at hperm; exact hallne hperm.nil_eq.symm) (fun x hx => hall x (hperm.mem_iff.1 hx)), maxMag_perm hperm, hμ]
    have key : F.dmdmaddsq fold S (F.dmrenorm s.2) (F.dmdmaddsq fold S (F.dmrenorm s.1) (ssqSpec F fold qs).1 (ssqSpec F fold qs).2).1
        (F.dmdmaddsq fold S (F.dmrenorm s.1) (ssqSpec F fold qs).1 (ssqSpec F fold qs).2).2 = ssqSpec F fold (qs ++ parts ps) := by
      rw [e0, e1, hS]
      have a1 : F.dscale (top (maxMag (parts ps))) = (ssqM F fold (maxMag (parts ps)) (ps.map Prod.fst)).1 := rfl
      have a2 : F.dscale (top (maxMag (parts ps))) = (ssqM F fold (maxMag (parts ps)) (ps.map Prod.snd)).1 := rfl
      by_cases hq : qs = []
      · subst hq
        rw [C29_start]
        dsimp only
        have f1 := ssqM_merge_zero (F := F) hfold hf hle0
        rw [← a1] at f1
        rw [f1]
        have f2 := ssqM_merge (F := F) hfold hJ hf hf hle1 hle0 (by rw [l1, l2]; simp at hN; omega)
        rw [← a2] at f2
        rw [f2, ← final (μ := max (maxMag (parts ps)) (maxMag (parts ps))) (by simp)]
        simp
      · have hqf := maxMag_finite hq hqs
        rw [ssqSpec_eq_M hq hqs]
        have f1 := ssqM_merge (F := F) (fold := fold) hfold hJ hf hqf hle0 (fun x hx => le_maxMag hx) (by rw [l1]; omega)
        rw [← a1] at f1
        rw [f1]
        have f2 := ssqM_merge (F := F) (fold := fold) hfold hJ hf (top_max hf hqf) hle1 (ys := ps.map Prod.fst ++ qs) (by
          intro y hy
          rcases List.mem_append.1 hy with h | h
          · exact Nat.le_trans (hle0 y h) (Nat.le_max_left _ _)
          · exact Nat.le_trans (le_maxMag h) (Nat.le_max_right _ _)) (by rw [List.length_append, l1, l2]; omega)
        rw [← a2] at f2
        rw [f2]
        apply final
        rw [maxMag_append]
        omega
    unfold zssqEnd
    dsimp only
    rw [key]
    exact fin hall

/-- The block loop. -/
theorem zssqLoop_spec [F.OK] {T : Tune} (hT : T.OK F) {fold : Nat} (hfold : 2 ≤ fold) (hJ : F.ssqHi + fold ≤ F.ssqJ + 1)
    {qs : List Flt} (hqs : ∀ x ∈ qs, F.Finite x) :
    ∀ (fuel : Nat) (es : List (Flt × Flt)) {ps : List (Flt × Flt)} {d dep : Nat} {S : Flt} {s : Binned × Binned}, es.length ≤ fuel →
    ZState F fold d ps S s → d ≤ dep → dep ≤ F.endurance → (∀ x ∈ parts ps, F.Finite x) →
    (∀ x ∈ parts es, F.Finite x) → qs.length + 2 * (ps.length + es.length) ≤ F.capacity →
    F.zssqLoop T fold (ssqSpec F fold qs).1 fuel es dep S s (ssqSpec F fold qs).2 = ssqSpec F fold (qs ++ parts (ps ++ es)) := by
  have hysp : F.isNaN (nth (ssqSpec F fold qs).2.pri 0) = false ∧ F.isInf (nth (ssqSpec F fold qs).2.pri 0) = false := by
    by_cases h0 : qs = []
    · subst h0; exact setzero_pri0 fold
    · exact isNaNInf_split ((SsqState.of_spec (F := F) (fold := fold) h0 hqs).mid.finite (by omega) (by omega))
  intro fuel
  induction fuel with
  | zero =>
    intro es ps d dep S s hlen h hd hdep hp hx hN
    have h0 : es = [] := List.eq_nil_of_length_eq_zero (by omega)
    subst h0
    rw [List.append_nil]
    exact zssqEnd_spec h hfold hJ (by omega) hqs hp (by simpa using hN)
  | succ fuel ih =>
    intro es ps d dep S s hlen h hd hdep hp hx hN
    unfold zssqLoop
    by_cases h0 : es = []
    · subst h0
      rw [if_pos rfl, List.append_nil]
      exact zssqEnd_spec h hfold hJ (by omega) hqs hp (by simpa using hN)
    · rw [if_neg h0]
      have hpos : 1 ≤ es.length := List.length_pos_iff.2 h0
      have hbl : (es.take T.nb).length = min T.nb es.length := List.length_take
      have hnb1 := hT.nb1
      have hnb2 := hT.nb2
      have hbne : es.take T.nb ≠ [] := by
        intro hc; rw [hc] at hbl; simp at hbl; omega
      have hbf : ∀ x ∈ parts (es.take T.nb), F.Finite x := by
        intro x hx'
        obtain ⟨a, ha, h⟩ := mem_parts.1 hx'
        exact hx x (mem_parts.2 ⟨a, List.mem_of_mem_take ha, h⟩)
      have hbr : ∀ x ∈ parts (es.drop T.nb), F.Finite x := by
        intro x hx'
        obtain ⟨a, ha, h⟩ := mem_parts.1 hx'
        exact hx x (mem_parts.2 ⟨a, List.mem_of_mem_drop ha, h⟩)
      have hp' : ∀ x ∈ parts (ps ++ es.take T.nb), F.Finite x := by
        intro x hx'
        obtain ⟨a, ha, h⟩ := mem_parts.1 hx'
        rcases List.mem_append.1 ha with ha | ha
        · exact hp x (mem_parts.2 ⟨a, ha, h⟩)
        · exact hbf x (mem_parts.2 ⟨a, ha, h⟩)
      have hrl : (es.drop T.nb).length = es.length - T.nb := List.length_drop
      have hmf := maxMag_finite (parts_ne hbne) hbf
      have hsp : F.isNaN (nth s.1.pri 0) = false ∧ F.isNaN (nth s.2.pri 0) = false := by
        rcases h with ⟨rfl, rfl, rfl⟩ | ⟨-, -, h1, h2⟩
        · exact ⟨(setzero_pri0 fold).1, (setzero_pri0 fold).1⟩
        · exact ⟨(isNaNInf_split (h1.mid.finite (by omega) (by omega))).1, (isNaNInf_split (h2.mid.finite (by omega) (by omega))).1⟩
      dsimp only
      rw [amax_top hT hbf]
      have hc1 : (F.isInf (top (maxMag (parts (es.take T.nb)))) || F.isInf (nth (ssqSpec F fold qs).2.pri 0)) = false := by
        rw [finite_not_inf hmf, hysp.2]; rfl
      rw [hc1]
      simp only [Bool.false_eq_true, if_false, hysp.1, hysp.2, hsp.1, hsp.2, Bool.or_false]
      have etd : ps ++ es = (ps ++ es.take T.nb) ++ es.drop T.nb := by rw [List.append_assoc, List.take_append_drop]
      by_cases hov : dep + (es.take T.nb).length > F.endurance
      · simp only [if_pos hov]
        have h' : ZState F fold 0 ps S (F.dmrenorm s.1, F.dmrenorm s.2) := by
          rcases h with ⟨rfl, rfl, rfl⟩ | ⟨g1, g2, g3, g4⟩
          · left
            have hren : F.dmrenorm (dmsetzero fold) = dmsetzero fold := by
              unfold dmrenorm dmsetzero; dsimp only; rw [nth_setzero]; rfl
            exact ⟨rfl, rfl, by dsimp only; rw [hren]⟩
          · right
            refine ⟨g1, g2, ?_, ?_⟩
            · rw [g3.renorm (by omega) (by omega) (by rw [List.length_map]; omega)]; exact SsqM.of g3.fin g3.le
            · rw [g4.renorm (by omega) (by omega) (by rw [List.length_map]; omega)]; exact SsqM.of g4.fin g4.le
        have hs := ZState.step hT hfold hJ h' hbne hbf (by omega)
        rw [etd]
        exact ih (es.drop T.nb) (by omega) hs (by omega) (by omega) hp' hbr (by rw [List.length_append]; omega)
      · simp only [if_neg hov]
        have hs := ZState.step hT hfold hJ h hbne hbf (by omega)
        rw [etd]
        exact ih (es.drop T.nb) (by omega) hs (by omega) (by omega) hp' hbr (by rw [List.length_append]; omega)

/-- **C51** (value): continuing the scaled sum of squares of `qs` (nothing for `qs = []`) with a complex vector gives the
specified pair of `qs` and the real and imaginary parts of the vector, whatever the tuning of the kernel. The fold is at
most 22 for double and 6 for float (`C29_folds`). -/
theorem C51_ssq_is_spec [F.OK] {T : Tune} (hT : T.OK F) {fold : Nat} (hfold : 2 ≤ fold) (hJ : F.ssqHi + fold ≤ F.ssqJ + 1)
    {qs : List Flt} (hqs : ∀ x ∈ qs, F.Finite x) {n : Nat} {X : Int → Flt × Flt} {incX : Int}
    (hx : ∀ i : Nat, i < n → F.Finite (X (i * incX)).1 ∧ F.Finite (X (i * incX)).2) (hN : qs.length + 2 * n ≤ F.capacity) :
    F.dmzssq T fold n X incX (ssqSpec F fold qs).1 (ssqSpec F fold qs).2 = ssqSpec F fold (qs ++ parts (gatherZ X incX n)) := by
  unfold dmzssq zssqList
  have hxs : ∀ x ∈ parts (gatherZ X incX n), F.Finite x := by
    intro x hxm
    obtain ⟨a, ha, h⟩ := mem_parts.1 hxm
    unfold gatherZ at ha
    obtain ⟨i, hi, rfl⟩ := List.mem_map.1 ha
    rcases h with rfl | rfl
    · exact (hx i (List.mem_range.1 hi)).1
    · exact (hx i (List.mem_range.1 hi)).2
  have hl := gatherZ_length X incX n
  have := zssqLoop_spec hT hfold hJ hqs (gatherZ X incX n).length (gatherZ X incX n) (ps := []) (d := 0) (dep := 0) (S := zero)
    (s := (dmsetzero fold, dmsetzero fold)) (Nat.le_refl _) (Or.inl ⟨rfl, rfl, rfl⟩) (Nat.le_refl _) (Nat.zero_le _) (by simp [parts]) hxs
    (by rw [hl, List.length_nil]; omega)
  simpa using this

theorem parts_perm {as bs : List (Flt × Flt)} (h : as.Perm bs) : (parts as).Perm (parts bs) := (h.map _).append (h.map _)

theorem ssqSpec_mag [F.OK] {fold : Nat} : ∀ {xs ys : List Flt}, (∀ x ∈ xs, F.Finite x) → xs.map Flt.mag = ys.map Flt.mag → ssqSpec F fold xs = ssqSpec F fold ys := by
  intro xs ys hf h
  have hmm : ∀ l : List Flt, maxMag l = (l.map Flt.mag).foldr max 0 := by
    intro l; unfold maxMag; rw [List.foldr_map]
  have hm : maxMag xs = maxMag ys := by rw [hmm, hmm, h]
  have hlen : xs.length = ys.length := by have := congrArg List.length h; simpa using this
  by_cases h0 : xs = []
  · subst h0
    have : ys = [] := List.eq_nil_of_length_eq_zero (by simpa using hlen.symm)
    subst this; rfl
  · have h1 : ys ≠ [] := by intro hc; rw [hc] at hlen; exact h0 (List.eq_nil_of_length_eq_zero (by simpa using hlen))
    have hM := maxMag_finite h0 hf
    obtain ⟨n, m, z, i1, v1, w1⟩ := scale_of hM
    unfold ssqSpec
    rw [scaleOf_ne h0, scaleOf_ne h1, ← hm]
    have key : ∀ (us vs : List Flt), (∀ x ∈ us, F.Finite x) → us.map Flt.mag = vs.map Flt.mag →
        us.map (F.sq (F.dscale ⟨false, maxMag xs⟩)) = vs.map (F.sq (F.dscale ⟨false, maxMag xs⟩)) := by
      intro us
      induction us with
      | nil => intro vs _ h; cases vs with
        | nil => rfl
        | cons v vs => simp at h
      | cons u us ih =>
        intro vs hu h
        cases vs with
        | nil => simp at h
        | cons v vs =>
          rw [List.map_cons, List.map_cons] at h
          injection h with a b
          rw [List.map_cons, List.map_cons, sq_mag i1 (hu u List.mem_cons_self) a, ih vs (fun x hx => hu x (List.mem_cons_of_mem _ hx)) b]
    rw [key xs ys hf h]

/-- **C51** (reproducibility): scale and bits of the sum of squares of a complex vector, and its norm, do not depend on
the order of the elements, on the stride or on the tuning. -/
theorem C51_independent [F.OK] {T T' : Tune} (hT : T.OK F) (hT' : T'.OK F) {fold : Nat} (hfold : 2 ≤ fold)
    (hJ : F.ssqHi + fold ≤ F.ssqJ + 1) {n : Nat} {X X' : Int → Flt × Flt} {incX incX' : Int}
    (hp : (gatherZ X incX n).Perm (gatherZ X' incX' n))
    (hx : ∀ i : Nat, i < n → F.Finite (X (i * incX)).1 ∧ F.Finite (X (i * incX)).2) (hN : 2 * n ≤ F.capacity) :
    F.dmzssq T fold n X incX zero (dmsetzero fold) = F.dmzssq T' fold n X' incX' zero (dmsetzero fold) ∧
    rdznrm2 F T fold n X incX = rdznrm2 F T' fold n X' incX' := by
  have hx' : ∀ i : Nat, i < n → F.Finite (X' (i * incX')).1 ∧ F.Finite (X' (i * incX')).2 := by
    intro i hi
    have h1 : X' (i * incX') ∈ gatherZ X' incX' n := by
      unfold gatherZ; exact List.mem_map.2 ⟨i, List.mem_range.2 hi, rfl⟩
    have h2 := hp.mem_iff.2 h1
    unfold gatherZ at h2
    obtain ⟨j, hj, e⟩ := List.mem_map.1 h2
    rw [← e]; exact hx j (List.mem_range.1 hj)
  have e : F.dmzssq T fold n X incX zero (dmsetzero fold) = F.dmzssq T' fold n X' incX' zero (dmsetzero fold) := by
    have a := C51_ssq_is_spec hT hfold hJ (qs := []) (by simp) hx (by simpa using hN)
    have b := C51_ssq_is_spec hT' hfold hJ (qs := []) (by simp) hx' (by simpa using hN)
    rw [C29_start] at a b
    rw [a, b]
    exact ssqSpec_perm (by simpa using parts_perm hp)
  exact ⟨e, by unfold rdznrm2; rw [e]⟩

/-- **C51** (complex as real): the norm of a complex vector of length `n` is, to the last bit, the norm of any real
vector of length `2 n` with the same absolute values as its real and imaginary parts, in any order. -/
theorem C51_as_real [F.OK] {T T' : Tune} (hT : T.OK F) (hT' : T'.OK F) {fold : Nat} (hfold : 2 ≤ fold)
    (hJ : F.ssqHi + fold ≤ F.ssqJ + 1) {n : Nat} {X : Int → Flt × Flt} {Y : Int → Flt} {incX incY : Int}
    (hp : ((gather Y incY (2 * n)).map fabs).Perm ((parts (gatherZ X incX n)).map fabs))
    (hx : ∀ i : Nat, i < n → F.Finite (X (i * incX)).1 ∧ F.Finite (X (i * incX)).2) (hN : 2 * n ≤ F.capacity) :
    F.dmzssq T fold n X incX zero (dmsetzero fold) = F.dmdssq T' fold (2 * n) Y incY zero (dmsetzero fold) ∧
    rdznrm2 F T fold n X incX = rdnrm2 F T' fold (2 * n) Y incY := by
  have fin : ∀ x ∈ parts (gatherZ X incX n), F.Finite x := by
    intro x hxm
    obtain ⟨a, ha, h⟩ := mem_parts.1 hxm
    unfold gatherZ at ha
    obtain ⟨i, hi, rfl⟩ := List.mem_map.1 ha
    rcases h with rfl | rfl
    · exact (hx i (List.mem_range.1 hi)).1
    · exact (hx i (List.mem_range.1 hi)).2
  have finY : ∀ y ∈ gather Y incY (2 * n), F.Finite y := by
    intro y hy
    have h1 : fabs y ∈ (parts (gatherZ X incX n)).map fabs := hp.mem_iff.1 (List.mem_map_of_mem hy)
    obtain ⟨x, hx1, e⟩ := List.mem_map.1 h1
    have : F.Finite (fabs x) := fin x hx1
    rw [e] at this
    exact this
  have hy : ∀ i : Nat, i < 2 * n → F.Finite (Y (i * incY)) := by
    intro i hi
    exact finY _ (by unfold gather; exact List.mem_map.2 ⟨i, List.mem_range.2 hi, rfl⟩)
  have e : F.dmzssq T fold n X incX zero (dmsetzero fold) = F.dmdssq T' fold (2 * n) Y incY zero (dmsetzero fold) := by
    have a := C51_ssq_is_spec hT hfold hJ (qs := []) (by simp) hx (by simpa using hN)
    have b := C29_ssq_is_spec hT' hfold hJ (ps := []) (by simp) hy (by simpa using hN)
    rw [C29_start] at a b
    rw [a, b, List.nil_append, List.nil_append]
    have em : ∀ l : List Flt, (l.map fabs).map Flt.mag = l.map Flt.mag := by
      intro l; rw [List.map_map]; rfl
    rw [ssqSpec_mag fin (em _).symm, ssqSpec_mag finY (em _).symm]
    exact ssqSpec_perm hp.symm
  exact ⟨e, by unfold rdznrm2 rdnrm2; rw [e]⟩

/-- **C51** (splitting): two complex vectors one after the other are one vector. -/
theorem C51_split [F.OK] {T T' T'' : Tune} (hT : T.OK F) (hT' : T'.OK F) (hT'' : T''.OK F) {fold : Nat} (hfold : 2 ≤ fold)
    (hJ : F.ssqHi + fold ≤ F.ssqJ + 1) {us vs ws : List (Flt × Flt)} (hp : ws.Perm (us ++ vs)) (hx : ∀ x ∈ parts (us ++ vs), F.Finite x)
    (hN : 2 * (us ++ vs).length ≤ F.capacity) :
    let s := F.zssqList T fold us zero (dmsetzero fold)
    F.zssqList T' fold vs s.1 s.2 = F.zssqList T'' fold ws zero (dmsetzero fold) := by
  dsimp only
  rw [List.length_append] at hN
  have hsub : ∀ {l : List (Flt × Flt)}, (∀ a ∈ l, a ∈ us ++ vs) → ∀ x ∈ parts l, F.Finite x := by
    intro l hl x hxm
    obtain ⟨a, ha, h⟩ := mem_parts.1 hxm
    exact hx x (mem_parts.2 ⟨a, hl a ha, h⟩)
  have run : ∀ {T : Tune} (_ : T.OK F) {l : List (Flt × Flt)} {qs : List Flt}, (∀ x ∈ qs, F.Finite x) → (∀ x ∈ parts l, F.Finite x) → qs.length + 2 * l.length ≤ F.capacity →
      F.zssqList T fold l (ssqSpec F fold qs).1 (ssqSpec F fold qs).2 = ssqSpec F fold (qs ++ parts l) := by
    intro T hT l qs hq hl hn
    unfold zssqList
    have := zssqLoop_spec hT hfold hJ hq l.length l (ps := []) (d := 0) (dep := 0) (S := zero)
      (s := (dmsetzero fold, dmsetzero fold)) (Nat.le_refl _) (Or.inl ⟨rfl, rfl, rfl⟩) (Nat.le_refl _) (Nat.zero_le _) (by simp [parts]) hl
      (by rw [List.length_nil]; omega)
    simpa using this
  have hu := hsub (l := us) (fun a h => List.mem_append_left _ h)
  have hv := hsub (l := vs) (fun a h => List.mem_append_right _ h)
  have hw := hsub (l := ws) (fun a h => hp.mem_iff.1 h)
  have a := run hT (qs := []) (by simp) hu (by simp; omega)
  have c := run hT'' (qs := []) (by simp) hw (by rw [hp.length_eq, List.length_append, List.length_nil]; omega)
  rw [C29_start, List.nil_append] at a c
  have b := run hT' (qs := parts us) hu hv (by rw [parts_length]; omega)
  rw [← a] at b
  rw [b, c]
  refine ssqSpec_perm (List.Perm.trans ?_ (parts_perm hp).symm)
  unfold parts
  rw [List.map_append, List.map_append]
  refine List.perm_iff_count.2 (fun x => ?_)
  simp only [List.count_append]
  omega

/-! ### Instances -/

/-- A vector whose scale grows from block to block (so that both parts are rescaled) meets the hypotheses; the norm of
(3 + 4i, 12i) is 13. -/
example : (⟨1, 1, 1, 1, 1, false⟩ : Tune).OK f64 ∧ f64.ssqHi + 3 ≤ f64.ssqJ + 1 ∧
    (∀ i : Nat, i < 3 → f64.Finite (f64.pow2 (200 * (i : Int) - 300)) ∧ f64.Finite (f64.pow2 (150 * (i : Int) - 300))) ∧ 6 ≤ f64.capacity :=
  ⟨tuneOne_ok.1, by decide, by decide +kernel, by decide +kernel⟩

example : rdznrm2 f64 ⟨1, 1, 1, 1, 1, false⟩ 3 2 (fun i => (f64.ofInt (3 - 3 * i), f64.ofInt (4 + 8 * i))) 1 = f64.ofInt 13 := by decide +kernel

/-- Rescaling where the probe of `binned_zmdrescale` looks at another entry than the one divided. -/
example : f64.zssqList ⟨1, 1, 1, 1, 1, false⟩ 4 [(f64.pow2 (-900), f64.pow2 (-1000)), (f64.pow2 100, f64.pow2 (-1000)), (zero, f64.pow2 900)] zero (dmsetzero 4) =
    ssqSpec f64 4 [f64.pow2 900, f64.pow2 (-1000), f64.pow2 (-900), f64.pow2 (-1000), f64.pow2 100, zero] := by decide +kernel

end Repro
