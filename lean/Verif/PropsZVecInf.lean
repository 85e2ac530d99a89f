import Verif.ZVecInf
/-!
# C54, C55: infinities and NaN in complex sums and dot products
-/

namespace Repro
open Fmt
variable {F : Fmt} {α : Type}

/-- The result `r` of summing `nums` when some of them are not finite: NaN if one is NaN or both infinities
occur; and with an infinity, that infinity or NaN, never a finite number and never the other infinity. -/
def Specials (F : Fmt) (nums : List Flt) (r : Flt) : Prop :=
  ((∃ x ∈ nums, F.isNaN x = true) ∨ (F.inf false ∈ nums ∧ F.inf true ∈ nums) → F.isNaN r = true) ∧
  (∀ s, F.inf s ∈ nums → F.isNaN r = true ∨ r = F.inf s)

/-- The same without the doubt: an infinity is returned unless a NaN or the other infinity occurs. -/
def SpecialsExact (F : Fmt) (nums : List Flt) (r : Flt) : Prop :=
  ((∃ x ∈ nums, F.isNaN x = true) ∨ (F.inf false ∈ nums ∧ F.inf true ∈ nums) → F.isNaN r = true) ∧
  (∀ s, F.inf s ∈ nums → (∀ x ∈ nums, F.isNaN x = false) → F.inf (!s) ∉ nums → r = F.inf s)

theorem kinds_inf_mem {nums : List Flt} {s : Bool} (hs : F.inf s ∈ nums) : F.kinds nums = .inf s ∨ F.kinds nums = .nan := by
  obtain ⟨l, r, rfl⟩ := List.append_of_mem hs
  rw [kinds_append]
  have hk : F.kind (F.inf s) = .inf s := kind_inf.2 rfl
  simp only [kinds, hk]
  cases F.kinds l with
  | nan => right; rfl
  | fin =>
    cases F.kinds r with
    | nan => right; rfl
    | fin => left; rfl
    | inf t => cases s <;> cases t <;> simp [Kind.add]
  | inf u =>
    cases F.kinds r with
    | nan => right; rfl
    | fin => cases s <;> cases u <;> simp [Kind.add]
    | inf t => cases s <;> cases t <;> cases u <;> simp [Kind.add]

theorem specials_of [F.OK] {fold : Nat} {safe : Prop} {nums : List Flt} {y : Binned} (h : F.kinds nums ≠ .fin → Loose safe (F.kinds nums) (F.kind (nth y.pri 0))) :
    Specials F nums (convert F fold y) ∧ (safe → SpecialsExact F nums (convert F fold y)) := by
  have hnan : (∃ x ∈ nums, F.isNaN x = true) ∨ (F.inf false ∈ nums ∧ F.inf true ∈ nums) → F.isNaN (convert F fold y) = true := by
    intro hn
    have hk := kinds_nan.2 hn
    have := (h (by rw [hk]; simp)).1
    rw [hk] at this
    have : F.kind (nth y.pri 0) = .nan := by rcases this with h | h <;> exact h
    rw [convert_special (by rw [this]; simp)]
    exact nan_of_kind this
  refine ⟨⟨hnan, ?_⟩, fun s => ⟨hnan, ?_⟩⟩
  · intro s hs
    have hk := kinds_inf_mem hs
    have hl := (h (by rcases hk with h | h <;> rw [h] <;> simp)).1
    have : F.kind (nth y.pri 0) = .inf s ∨ F.kind (nth y.pri 0) = .nan := by
      rcases hl with h1 | h1
      · rw [h1]; exact hk
      · right; exact h1
    rcases this with h1 | h1
    · right; rw [convert_special (by rw [h1]; simp)]; exact kind_inf.1 h1
    · left; rw [convert_special (by rw [h1]; simp)]; exact nan_of_kind h1
  · intro t ht hn ho
    have hk : F.kinds nums = .inf t := by
      rcases kinds_inf_mem ht with h | h
      · exact h
      · rcases kinds_nan.1 h with ⟨x, hx, hxn⟩ | ⟨h1, h2⟩
        · rw [hn x hx] at hxn; simp at hxn
        · cases t
          · exact absurd h2 ho
          · exact absurd h1 ho
    have h1 := (h (by rw [hk]; simp)).2 s
    rw [hk] at h1
    rw [convert_special (by rw [h1]; simp)]; exact kind_inf.1 h1

theorem zvecSum_im_special [F.OK] {T : Tune} (hT : T.OK F) {O : ZOp α} (hO : O.OK) (ht : TermOK F O) {es : List α} (hnb : O.e * min T.nb es.length ≤ F.endurance) {fold : Nat} (hfold : 2 ≤ fold)
    {h : Hist} (hl : h.Legal F) (hN : (partNums O.e O.fI es).length + h.nums.length ≤ F.capacity) (y0 : Binned)
    {nums : List Flt} (hnums : F.kinds nums = F.kinds (partNums O.e O.fI es)) :
    Specials F nums (convert F fold (F.zvecSum T fold O es (y0, h.eval F fold)).2) ∧
    (ZSafe F O es ∧ (∀ x ∈ h.seen, 1 ≤ F.dindex x) → SpecialsExact F nums (convert F fold (F.zvecSum T fold O es (y0, h.eval F fold)).2)) := by
  apply specials_of
  rw [hnums]
  intro hk
  have he : es ≠ [] := by rintro rfl; exact hk rfl
  rw [zvecSum_short]
  replace hT := hT.short es.length
  replace hnb : O.e * (T.short es.length).nb ≤ F.endurance := short_nb he hnb
  generalize T.short es.length = T at hT hnb ⊢
  unfold zvecSum
  exact zvecLoop_mixed hT hO ht hnb hfold es.length es (N := h.nums.length) (Nat.le_refl _)
    (by rw [Nat.mul_zero]; exact hist_state hfold hl (by omega) _ (fun s => s.2)) (Nat.zero_le _) (by omega) (fun s => s.1) hk

theorem zvecSum_re_special [F.OK] {T : Tune} (hT : T.OK F) {O : ZOp α} (hO : O.OK) (ht : TermOK F O.swap) {es : List α} (hnb : O.e * min T.nb es.length ≤ F.endurance) {fold : Nat} (hfold : 2 ≤ fold)
    {h : Hist} (hl : h.Legal F) (hN : (partNums O.e O.fR es).length + h.nums.length ≤ F.capacity) (y1 : Binned)
    {nums : List Flt} (hnums : F.kinds nums = F.kinds (partNums O.e O.fR es)) :
    Specials F nums (convert F fold (F.zvecSum T fold O es (h.eval F fold, y1)).1) ∧
    (ZSafe F O.swap es ∧ (∀ x ∈ h.seen, 1 ≤ F.dindex x) → SpecialsExact F nums (convert F fold (F.zvecSum T fold O es (h.eval F fold, y1)).1)) := by
  have hsw : O.swap.OK := ⟨hO.e1, hO.zI, hO.zR⟩
  have := zvecSum_im_special hT hsw ht hnb hfold hl (es := es) hN y1 (nums := nums) hnums
  unfold zvecSum at this ⊢
  have e := zvecLoop_swap (F := F) T fold O es.length es 0 (h.eval F fold, y1)
  rw [Prod.swap_prod_mk] at e
  rw [e] at this
  exact this

/-! ### NaN propagates whatever the state and the block size -/

theorem foldl_add_nan : ∀ (l : List Flt) {m : Flt}, (F.isNaN m = true ∨ ∃ x ∈ l, F.isNaN x = true) → F.isNaN (l.foldl F.add m) = true := by
  intro l
  induction l with
  | nil => intro m h; simpa using h
  | cons x l ih =>
    intro m h
    rw [List.foldl_cons]
    apply ih
    rcases h with h | ⟨z, hz, hn⟩
    · left; exact add_nan_left h
    · rcases List.mem_cons.1 hz with rfl | hz
      · left; exact add_nan_right hn
      · right; exact ⟨z, hz, hn⟩

theorem loose_nan {k r : Kind} (h : Loose False (Kind.nan.add k) r) : r = .nan := by
  rcases h.1 with h | h
  · rw [h]; rfl
  · exact h

theorem zvecLoop_nan [F.OK] {T : Tune} (hT : T.OK F) {O : ZOp α} (hO : O.OK) (ht : TermOK F O) {fold : Nat} (hfold : 1 ≤ fold) :
    ∀ (fuel : Nat) (es : List α) {dep : Nat} {y0 y1 : Binned}, es.length ≤ fuel → y1.pri.length = fold →
    (∃ x ∈ partNums O.e O.fI es, F.isNaN x = true) → F.kind (nth (F.zvecLoop T fold O fuel es dep (y0, y1)).2.pri 0) = .nan := by
  have he1 := hO.e1
  intro fuel
  induction fuel with
  | zero =>
    intro es dep y0 y1 hlen hl hn
    have h0 : es = [] := List.eq_nil_of_length_eq_zero (by omega)
    subst h0
    obtain ⟨x, hx, _⟩ := hn; simp [partNums] at hx
  | succ fuel ih =>
    intro es dep y0 y1 hlen hl hn
    have h0 : es ≠ [] := by intro hc; subst hc; obtain ⟨x, hx, _⟩ := hn; simp [partNums] at hx
    rw [zvecLoop_succ h0]
    have hpos : 1 ≤ es.length := List.length_pos_iff.2 h0
    have hnb1 := hT.nb1
    have hrl : (es.drop T.nb).length = es.length - T.nb := List.length_drop
    have hsplit := partNums_take_drop T.nb O.e O.fI es
    have hrec : ∀ (dep : Nat) (y0 y1 : Binned), 1 ≤ y1.pri.length → F.kind (nth y1.pri 0) ≠ .fin →
        Loose False ((F.kind (nth y1.pri 0)).add (F.kinds (partNums O.e O.fI (es.drop T.nb)))) (F.kind (nth (F.zvecLoop T fold O fuel (es.drop T.nb) dep (y0, y1)).2.pri 0)) :=
      fun dep y0 y1 hl hk => zvecLoop_special hT hO ht fuel _ (by omega) (fun s => s.elim) hl hk
    dsimp only
    generalize (if (F.isInf (F.amaxZ T O.e O.fR O.zfill (es.take T.nb)) || F.isInf (nth y0.pri 0)) = true then F.accum0 ((es.take T.nb).map O.tR) y0 else y0) = w0
    generalize F.amaxZ T O.e O.fR O.zfill (es.take T.nb) = a0
    -- NaN already
    have hnan : ∀ v, 1 ≤ v.pri.length → F.kind (nth v.pri 0) = .nan → F.kind (nth (zrest F T fold O fuel es dep a0 (F.amaxZ T O.e O.fI O.zfill (es.take T.nb)) w0 v).2.pri 0) = .nan := by
      intro v hv hk
      have := zrest_special (ex := False) hT hO (dep := dep) (a0 := a0) (a1 := F.amaxZ T O.e O.fI O.zfill (es.take T.nb)) (y0 := w0) hrec hv (by rw [hk]; simp)
      rw [hk] at this
      exact loose_nan this
    have hlen' : ∀ v, v.pri.length = fold → (if dep + (es.take T.nb).length > F.endurance / O.e then F.dmrenorm v else v).pri.length = fold := by
      intro v hv
      split
      · rw [renorm_length]; exact hv
      · exact hv
    by_cases hb : ∃ x ∈ partNums O.e O.fI (es.take T.nb), F.isNaN x = true
    · -- in this block
      have hkb : F.kinds (partNums O.e O.fI (es.take T.nb)) = .nan := kinds_nan.2 (Or.inl hb)
      have hterm : F.kinds ((es.take T.nb).map O.tI) = .nan := by
        rcases kinds_terms ht (es.take T.nb) (by rw [hkb]; simp) with h | h
        · rw [h, hkb]
        · exact h
      have hacc : F.kind (nth (F.accum0 ((es.take T.nb).map O.tI) y1).pri 0) = .nan := by
        rw [accum0_pri0 _ (by omega)]
        by_cases hk : F.kind (nth y1.pri 0) = .fin
        · rcases foldl_add_mixed (F := F) ((es.take T.nb).map O.tI) (m := nth y1.pri 0) (by rw [hterm]; simp) with h | h
          · rw [h, hk, hterm]; rfl
          · exact h
        · rw [foldl_add_special _ hk, hterm, Kind.add_comm]; rfl
      by_cases hai : (F.isInf (F.amaxZ T O.e O.fI O.zfill (es.take T.nb)) || F.isInf (nth y1.pri 0)) = true
      · rw [if_pos hai]
        exact hnan _ (by rw [accum0_length]; omega) hacc
      · rw [if_neg hai]
        by_cases hyn : F.kind (nth y1.pri 0) = .nan
        · exact hnan _ (by omega) hyn
        · have hyf : F.kind (nth y1.pri 0) = .fin := by
            cases hc : F.kind (nth y1.pri 0) with
            | fin => rfl
            | nan => exact absurd hc hyn
            | inf s => rw [(inf_of_kind hc).2, Bool.or_true] at hai; simp at hai
          have hfin := kind_fin.1 hyf
          have hai' : F.isInf (F.amaxZ T O.e O.fI O.zfill (es.take T.nb)) = false := by
            cases hc : F.isInf (F.amaxZ T O.e O.fI O.zfill (es.take T.nb)) with
            | false => rfl
            | true => rw [hc] at hai; simp at hai
          unfold zrest
          simp only [Bool.false_eq_true, if_false, finite_not_nan hfin, finite_not_inf hfin, Bool.and_false, isNaNInf_false hfin, hai']
          have key : ∀ (m : Mode) (dep' : Nat) (v u : Binned), u.pri.length = fold →
              F.kind (nth (F.zvecLoop T fold O fuel (es.drop T.nb) dep' (v, ⟨F.kernelZ T m O.e O.fI O.zfill (es.take T.nb) u.pri, u.car⟩)).2.pri 0) = .nan := by
            intro m dep' v u hu
            have hkn' : F.isNaN (nth (F.kernelZ T m O.e O.fI O.zfill (es.take T.nb) u.pri) 0) = true := kernelZ_nan hT he1 (by omega) (Or.inl hb)
            have := hrec dep' v ⟨F.kernelZ T m O.e O.fI O.zfill (es.take T.nb) u.pri, u.car⟩ (by dsimp only; rw [kernelZ_len]; omega) (by dsimp only; rw [kind_nan.2 hkn']; simp)
            dsimp only at this
            rw [kind_nan.2 hkn'] at this
            exact loose_nan this
          apply key
          exact update_length (hlen' _ hl)
    · -- later
      have hn' : ∃ x ∈ partNums O.e O.fI (es.drop T.nb), F.isNaN x = true := by
        obtain ⟨x, hx, hxn⟩ := hn
        rw [← hsplit] at hx
        rcases List.mem_append.1 hx with h | h
        · exact absurd ⟨x, h, hxn⟩ hb
        · exact ⟨x, h, hxn⟩
      have hv : (if (F.isInf (F.amaxZ T O.e O.fI O.zfill (es.take T.nb)) || F.isInf (nth y1.pri 0)) = true then F.accum0 ((es.take T.nb).map O.tI) y1 else y1).pri.length = fold := by
        split
        · rw [accum0_length]; exact hl
        · exact hl
      generalize (if (F.isInf (F.amaxZ T O.e O.fI O.zfill (es.take T.nb)) || F.isInf (nth y1.pri 0)) = true then F.accum0 ((es.take T.nb).map O.tI) y1 else y1) = v at hv
      by_cases hvn : F.kind (nth v.pri 0) = .nan
      · exact hnan _ (by omega) hvn
      · unfold zrest
        have hvn' : F.isNaN (nth v.pri 0) = false := by
          by_contra hc; exact hvn (kind_nan.2 (by simpa using hc))
        rw [hvn', Bool.and_false]
        simp only [Bool.false_eq_true, if_false]
        split
        · exact ih _ (by omega) hv hn'
        · apply ih _ (by omega) _ hn'
          have hk : ∀ m (a : Flt), (F.kernelZ T m O.e O.fI O.zfill (es.take T.nb)
              (F.dmdupdate fold a (if dep + (es.take T.nb).length > F.endurance / O.e then F.dmrenorm v else v)).pri).length = fold := by
            intro m a; rw [kernelZ_len]; exact update_length (hlen' _ hv)
          have gen : ∀ (c : Bool) (a : Flt) (u : Binned), u.pri.length = fold → (if c = true then setHead a u else u).pri.length = fold := by
            intro c a u hu
            cases c
            · exact hu
            · simp only [if_true]; rw [(setHead_nth (by omega)).2]; exact hu
          exact gen _ _ _ (hk _ _)

/-- A special number added to the numbers of a list that is special gives what the list gives, or NaN. -/
theorem Kind.add_or {k K : Kind} (hK : K ≠ .fin) : k.add K = K ∨ k.add K = .nan := by
  cases k with
  | fin => left; exact Kind.fin_add _
  | nan => right; rfl
  | inf s =>
    cases K with
    | fin => exact absurd rfl hK
    | nan => left; rfl
    | inf t => cases s <;> cases t <;> simp [Kind.add]

theorem Loose.drop {k K r : Kind} (h : Loose False (k.add K) r) (hK : K ≠ .fin) : Loose False K r := by
  refine ⟨?_, fun s => s.elim⟩
  rcases h.1 with h1 | h1
  · rw [h1]; exact Kind.add_or hK
  · right; exact h1

/-- Special numbers leave their kind, or NaN, whatever the accumulators and the block size. -/
theorem zvecLoop_inf [F.OK] {T : Tune} (hT : T.OK F) {O : ZOp α} (hO : O.OK) (ht : TermOK F O) {fold : Nat} (hfold : 1 ≤ fold) :
    ∀ (fuel : Nat) (es : List α) {dep : Nat} {y0 y1 : Binned}, es.length ≤ fuel → y1.pri.length = fold →
    F.kinds (partNums O.e O.fI es) ≠ .fin → Loose False (F.kinds (partNums O.e O.fI es)) (F.kind (nth (F.zvecLoop T fold O fuel es dep (y0, y1)).2.pri 0)) := by
  have he1 := hO.e1
  intro fuel
  induction fuel with
  | zero =>
    intro es dep y0 y1 hlen hl hk
    have h0 : es = [] := List.eq_nil_of_length_eq_zero (by omega)
    subst h0
    exact absurd rfl hk
  | succ fuel ih =>
    intro es dep y0 y1 hlen hl hk
    by_cases hnan : ∃ x ∈ partNums O.e O.fI es, F.isNaN x = true
    · refine ⟨Or.inr ?_, fun s => s.elim⟩
      exact zvecLoop_nan hT hO ht hfold _ _ hlen hl hnan
    have h0 : es ≠ [] := by intro hc; subst hc; exact hk rfl
    rw [zvecLoop_succ h0]
    have hpos : 1 ≤ es.length := List.length_pos_iff.2 h0
    have hnb1 := hT.nb1
    have hrl : (es.drop T.nb).length = es.length - T.nb := List.length_drop
    have hsplit := partNums_take_drop T.nb O.e O.fI es
    have hkv : F.kinds (partNums O.e O.fI es) = (F.kinds (partNums O.e O.fI (es.take T.nb))).add (F.kinds (partNums O.e O.fI (es.drop T.nb))) := by
      rw [← kinds_append, hsplit]
    have hrec : ∀ (dep : Nat) (y0 y1 : Binned), 1 ≤ y1.pri.length → F.kind (nth y1.pri 0) ≠ .fin →
        Loose False ((F.kind (nth y1.pri 0)).add (F.kinds (partNums O.e O.fI (es.drop T.nb)))) (F.kind (nth (F.zvecLoop T fold O fuel (es.drop T.nb) dep (y0, y1)).2.pri 0)) :=
      fun dep y0 y1 hl hk => zvecLoop_special hT hO ht fuel _ (by omega) (fun s => s.elim) hl hk
    dsimp only
    generalize (if (F.isInf (F.amaxZ T O.e O.fR O.zfill (es.take T.nb)) || F.isInf (nth y0.pri 0)) = true then F.accum0 ((es.take T.nb).map O.tR) y0 else y0) = w0
    generalize F.amaxZ T O.e O.fR O.zfill (es.take T.nb) = a0
    by_cases hkb : F.kinds (partNums O.e O.fI (es.take T.nb)) = .fin
    · -- nothing special in this block
      have hk' : F.kinds (partNums O.e O.fI (es.drop T.nb)) ≠ .fin := by rw [hkv, hkb, Kind.fin_add] at hk; exact hk
      rw [hkv, hkb, Kind.fin_add]
      have hv : (if (F.isInf (F.amaxZ T O.e O.fI O.zfill (es.take T.nb)) || F.isInf (nth y1.pri 0)) = true then F.accum0 ((es.take T.nb).map O.tI) y1 else y1).pri.length = fold := by
        split
        · rw [accum0_length]; exact hl
        · exact hl
      generalize (if (F.isInf (F.amaxZ T O.e O.fI O.zfill (es.take T.nb)) || F.isInf (nth y1.pri 0)) = true then F.accum0 ((es.take T.nb).map O.tI) y1 else y1) = v at hv
      generalize F.amaxZ T O.e O.fI O.zfill (es.take T.nb) = a1
      by_cases hvk : F.kind (nth v.pri 0) = .fin
      · have hfin := kind_fin.1 hvk
        unfold zrest
        simp only [Bool.false_eq_true, if_false, finite_not_nan hfin, finite_not_inf hfin, Bool.and_false, isNaNInf_false hfin]
        apply ih _ (by omega) _ hk'
        have hu : ∀ m (a : Flt), (F.kernelZ T m O.e O.fI O.zfill (es.take T.nb)
            (F.dmdupdate fold a (if dep + (es.take T.nb).length > F.endurance / O.e then F.dmrenorm v else v)).pri).length = fold := by
          intro m a; rw [kernelZ_len]; apply update_length
          split
          · rw [renorm_length]; exact hv
          · exact hv
        have gen : ∀ (c : Bool) (a : Flt) (u : Binned), u.pri.length = fold → (if c = true then setHead a u else u).pri.length = fold := by
          intro c a u hu
          cases c
          · exact hu
          · simp only [if_true]; rw [(setHead_nth (by omega)).2]; exact hu
        exact gen _ _ _ (hu _ _)
      · exact (zrest_special hT hO hrec (by omega) hvk).drop hk'
    · -- an infinity in this block
      have hai : F.isInf (F.amaxZ T O.e O.fI O.zfill (es.take T.nb)) = true := by
        apply amaxZ_inf hT hO.zI hkb
        rintro ⟨x, hx, hn⟩
        exact hnan ⟨x, by rw [← hsplit]; exact List.mem_append_left _ hx, hn⟩
      rw [hai]
      simp only [Bool.true_or, if_true]
      have hacc := accum0_pri0 (F := F) ((es.take T.nb).map O.tI) (y := y1) (by omega)
      have hterm := kinds_terms ht (es.take T.nb) hkb
      have hmix := foldl_add_mixed (F := F) ((es.take T.nb).map O.tI) (m := nth y1.pri 0) (by rcases hterm with h | h <;> rw [h]; exacts [hkb, by simp])
      rw [← hacc] at hmix
      have h1 : F.kind (nth (F.accum0 ((es.take T.nb).map O.tI) y1).pri 0) = F.kinds (partNums O.e O.fI (es.take T.nb)) ∨
          F.kind (nth (F.accum0 ((es.take T.nb).map O.tI) y1).pri 0) = .nan := by
        rcases hmix with h | h
        · rw [h]
          rcases hterm with h | h
          · rw [h]; exact Kind.add_or hkb
          · right; rw [h, Kind.add_comm]; rfl
        · right; exact h
      rw [hkv]
      exact (zrest_special hT hO hrec (by rw [accum0_length]; omega) (by rcases h1 with h | h <;> rw [h]; exacts [hkb, by simp])).trans h1 (fun s => s.elim)

/-! ### the routines -/

theorem zsumOp_ok' : (zsumOp).OK := ⟨by show 1 ≤ 1; decide, fun _ => rfl, fun _ => rfl⟩

theorem elem_one (f : α → Nat → Flt) (a : α) : elemKind F 1 f a = F.kind (f a 0) := by
  unfold elemKind; simp [List.range_succ, kinds]

theorem elem_two (f : α → Nat → Flt) (a : α) : elemKind F 2 f a = (F.kind (f a 0)).add (F.kind (f a 1)) := by
  unfold elemKind; simp [List.range_succ, kinds]

theorem val_index1 [F.OK] {x : Flt} (hx : F.Finite x) (h : 1 ≤ F.dindex x) : F.val x.mag ≤ 2 ^ (F.uexp 1 + F.W - 1) := by
  have ⟨hp, hW, hWp, hpW, he, he1, hb, het, _⟩ := F.facts
  have hb9 := F.bfacts
  have hmax1 : 1 ≤ F.maxIndex := by have := dindex_le_max (F := F) x; omega
  have hu1 : F.uexp 1 = F.eta + F.maxExp + 1 - F.W - F.W := by
    unfold uexp; rw [Nat.min_eq_left hmax1, Nat.mul_one]
  have h1 := dindex_upper (F := F) hx
  have h3 : F.W * 1 ≤ F.W * F.dindex x := Nat.mul_le_mul_left _ h
  refine Nat.le_of_lt (Nat.lt_of_lt_of_le h1 (Nat.pow_le_pow_right (by omega) ?_))
  omega

theorem zsum_safe [F.OK] (f : Flt × Flt → Flt) (O : ZOp (Flt × Flt)) (he : O.e = 1) (hf : ∀ a q, O.fI a q = f a) (ht : ∀ a, O.tI a = f a) {es : List (Flt × Flt)}
    (hx : ∀ a ∈ es, F.Finite (f a) → 1 ≤ F.dindex (f a)) : TermOK F O ∧ ZSafe F O es := by
  have hk : ∀ a, F.kind (O.tI a) = elemKind F O.e O.fI a := by intro a; rw [he, elem_one, hf, ht]
  refine ⟨fun a _ => hk a, ⟨fun a _ => hk a, ?_, ?_⟩⟩
  · intro a ha hfin
    rw [ht] at hfin ⊢
    rw [he, Nat.one_mul]; exact val_index1 hfin (hx a ha hfin)
  · intro x hxm hfin
    obtain ⟨a, ha, q, hq, rfl⟩ := mem_partNums.1 hxm
    rw [hf] at hfin ⊢
    exact hx a ha hfin

theorem zsum_term (f : Flt × Flt → Flt) (O : ZOp (Flt × Flt)) (he : O.e = 1) (hf : ∀ a q, O.fI a q = f a) (ht : ∀ a, O.tI a = f a) : TermOK F O := by
  intro a _; rw [he, elem_one, hf, ht]

/-- **C54** Infinities and NaN in the sum of a strided complex vector, added to complex binned values that hold
finite numbers: each part of the converted result is special exactly according to the numbers of that part, even
if the other part is anything (`y` arbitrary): NaN if that part of the vector contains NaN or both infinities; an
infinity gives that infinity or NaN, never a finite number. If the finite numbers of that part are below
`2^(MAX_EXP - W)` the infinity is returned whenever there is neither NaN nor the other infinity, whatever the
order, the strides and the tuning. -/
theorem C54_sum [F.OK] {T : Tune} (hT : T.OK F) {fold : Nat} (hfold : 2 ≤ fold) {h : Hist} (hl : h.Legal F) {n : Nat} {X : Int → Flt × Flt} {incX : Int}
    (hN : n + h.nums.length ≤ F.capacity) (y : Binned) :
    (Specials F ((gatherZ X incX n).map Prod.fst) (convert F fold (F.zmzsum T fold n X incX (h.eval F fold, y)).1) ∧
      ((∀ i : Nat, i < n → F.Finite (X (i * incX)).1 → 1 ≤ F.dindex (X (i * incX)).1) ∧ (∀ x ∈ h.seen, 1 ≤ F.dindex x) →
        SpecialsExact F ((gatherZ X incX n).map Prod.fst) (convert F fold (F.zmzsum T fold n X incX (h.eval F fold, y)).1))) ∧
    (Specials F ((gatherZ X incX n).map Prod.snd) (convert F fold (F.zmzsum T fold n X incX (y, h.eval F fold)).2) ∧
      ((∀ i : Nat, i < n → F.Finite (X (i * incX)).2 → 1 ≤ F.dindex (X (i * incX)).2) ∧ (∀ x ∈ h.seen, 1 ≤ F.dindex x) →
        SpecialsExact F ((gatherZ X incX n).map Prod.snd) (convert F fold (F.zmzsum T fold n X incX (y, h.eval F fold)).2))) := by
  have hmem : ∀ (P : Flt × Flt → Prop), (∀ i : Nat, i < n → P (X (i * incX))) → ∀ a ∈ gatherZ X incX n, P a := by
    intro P hP a ha
    unfold gatherZ at ha
    obtain ⟨i, hi, rfl⟩ := List.mem_map.1 ha
    exact hP i (List.mem_range.1 hi)
  have hR := partNums_one (zsumOp).fR (gatherZ X incX n)
  have hI := partNums_one (zsumOp).fI (gatherZ X incX n)
  have eR : (gatherZ X incX n).map (fun a => (zsumOp).fR a 0) = (gatherZ X incX n).map Prod.fst := rfl
  have eI : (gatherZ X incX n).map (fun a => (zsumOp).fI a 0) = (gatherZ X incX n).map Prod.snd := rfl
  rw [eR] at hR; rw [eI] at hI
  have hlen : (gatherZ X incX n).length = n := by unfold gatherZ; simp
  constructor
  · have := zvecSum_re_special hT zsumOp_ok' (zsum_term Prod.fst (zsumOp).swap rfl (fun _ _ => rfl) (fun _ => rfl)) (by show 1 * min _ _ ≤ _; have := hT.nb2; omega) hfold hl
      (es := gatherZ X incX n) (by show (partNums 1 _ _).length + _ ≤ _; rw [hR, List.length_map, hlen]; exact hN) y (nums := (gatherZ X incX n).map Prod.fst) (congrArg F.kinds hR.symm)
    exact ⟨this.1, fun s => this.2 ⟨(zsum_safe Prod.fst (zsumOp).swap rfl (fun _ _ => rfl) (fun _ => rfl) (hmem _ s.1)).2, s.2⟩⟩
  · have := zvecSum_im_special hT zsumOp_ok' (zsum_term Prod.snd zsumOp rfl (fun _ _ => rfl) (fun _ => rfl)) (by show 1 * min _ _ ≤ _; have := hT.nb2; omega) hfold hl
      (es := gatherZ X incX n) (by show (partNums 1 _ _).length + _ ≤ _; rw [hI, List.length_map, hlen]; exact hN) y (nums := (gatherZ X incX n).map Prod.snd) (congrArg F.kinds hI.symm)
    exact ⟨this.1, fun s => this.2 ⟨(zsum_safe Prod.snd zsumOp rfl (fun _ _ => rfl) (fun _ => rfl) (hmem _ s.1)).2, s.2⟩⟩

/-! ### dot products -/

theorem kind_fneg (v : Flt) : F.kind (fneg v) = (F.kind v).neg := by
  have h1 : F.isNaN (fneg v) = F.isNaN v := rfl
  have h2 : F.isInf (fneg v) = F.isInf v := rfl
  unfold kind
  rw [h1, h2]
  cases F.isNaN v <;> cases F.isInf v <;> simp [Kind.neg, fneg]

theorem kind_flip [F.OK] (T : Tune) (x : Flt) : F.kind (F.flip T x) = F.kind (fneg x) := by
  by_cases hx : F.Finite x
  · rw [flip_eq hx]
  · unfold Fmt.flip
    split
    · rfl
    · have ho : F.Finite F.one := one_ok.1
      have n3 : F.isNaN (fneg F.one) = false := finite_not_nan ho
      have i3 : F.isInf (fneg F.one) = false := finite_not_inf ho
      have hoz : isZero (fneg F.one) = false := by
        have h := one_ok (F := F)
        have : isZero F.one = false := by
          rcases (inferInstance : F.OK).isDoubleOrFloat with rfl | rfl <;> decide +kernel
        exact this
      rw [kind_fneg]
      have hos : (fneg F.one).neg = true := by rfl
      by_cases hn : F.isNaN x = true
      · have h1 : F.isNaN (F.mul x (fneg F.one)) = true := mul_nan_left hn
        rw [kind_nan.2 h1, kind_nan.2 hn]; rfl
      · have hi : F.isInf x = true := by
          by_contra hc
          exact hx (finite_iff.2 ⟨by simpa using hn, by simpa using hc⟩)
        have hn' : F.isNaN x = false := by simpa using hn
        have e : F.mul x (fneg F.one) = F.inf (!x.neg) := by
          unfold Fmt.mul
          rw [hn', n3, hi, i3, hos]
          have hxm : x.mag ≠ 0 := by
            intro hc; unfold Finite at hx; apply hx; rw [hc]
            unfold infMag; have ⟨hp, _⟩ := F.facts
            rcases (inferInstance : F.OK).isDoubleOrFloat with rfl | rfl <;> decide +kernel
          have hom : (fneg F.one).mag ≠ 0 := by
            unfold isZero at hoz; simpa using hoz
          simp only [Bool.or_self, Bool.false_eq_true, if_false, Bool.true_or, if_true, hxm, hom, or_self]
          unfold inf; cases x.neg <;> rfl
        have e2 : x = F.inf x.neg := by
          cases x; unfold isInf at hi; simp at hi; unfold inf; rw [hi]
        rw [e, kind_inf.2 rfl, e2, kind_inf.2 rfl]; rfl

/-- The products behind one part of a dot product. -/
structure DotPart (F : Fmt) (O : ZOp α) (P : α → Flt × Flt) : Prop where
  e : O.e = 2
  k0 : ∀ a, F.kind (O.fI a 0) = F.kind (P a).1
  k1 : ∀ a, F.kind (O.fI a 1) = F.kind (P a).2
  m0 : ∀ a, F.Finite (P a).1 → (O.fI a 0).mag = (P a).1.mag
  m1 : ∀ a, F.Finite (P a).2 → (O.fI a 1).mag = (P a).2.mag
  t : ∀ a, O.tI a = F.add (P a).1 (P a).2 ∨ O.tI a = F.add (P a).2 (P a).1

theorem DotPart.elem {O : ZOp α} {P : α → Flt × Flt} (h : DotPart F O P) (a : α) : elemKind F O.e O.fI a = (F.kind (P a).1).add (F.kind (P a).2) := by
  rw [h.e, elem_two, h.k0, h.k1]

theorem DotPart.kt [F.OK] {O : ZOp α} {P : α → Flt × Flt} (h : DotPart F O P) (a : α) : O.tI a = F.add (P a).1 (P a).2 := by
  rcases h.t a with e | e
  · exact e
  · rw [e, add_comm_all]

theorem DotPart.term [F.OK] {O : ZOp α} {P : α → Flt × Flt} (h : DotPart F O P) : TermOK F O := by
  intro a ha
  rw [h.elem, Ne, Kind.add_eq_fin] at ha
  rw [h.elem, h.kt]
  by_cases h1 : F.kind (P a).1 = .fin
  · exact kind_add_right (fun h2 => ha ⟨h1, h2⟩)
  · exact kind_add_left h1

theorem DotPart.nums {O : ZOp α} {P : α → Flt × Flt} (h : DotPart F O P) : ∀ (es : List α),
    F.kinds (es.flatMap (fun a => [(P a).1, (P a).2])) = F.kinds (partNums O.e O.fI es) := by
  intro es
  induction es with
  | nil => rfl
  | cons a es ih =>
    rw [kinds_partNums_cons, List.flatMap_cons, kinds_append, ih, h.elem]
    simp [kinds]

theorem DotPart.safe [F.OK] {O : ZOp α} {P : α → Flt × Flt} (h : DotPart F O P) {es : List α}
    (hx : ∀ a ∈ es, (F.Finite (P a).1 → 1 ≤ F.dindex (P a).1) ∧ (F.Finite (P a).2 → 1 ≤ F.dindex (P a).2)) : ZSafe F O es := by
  have ⟨hp, hW, hWp, hpW, he, he1, hb, het, _⟩ := F.facts
  have hb9 := F.bfacts
  have hsum : ∀ a ∈ es, F.Finite (P a).1 → F.Finite (P a).2 → F.Finite (F.add (P a).1 (P a).2) ∧ (F.toInt (F.add (P a).1 (P a).2)).natAbs ≤ 2 * 2 ^ (F.uexp 1 + F.W - 1) := by
    intro a ha h1 h2
    have v1 := val_index1 h1 ((hx a ha).1 h1)
    have v2 := val_index1 h2 ((hx a ha).2 h2)
    have hmax1 : 1 ≤ F.maxIndex := by rcases (inferInstance : F.OK).isDoubleOrFloat with rfl | rfl <;> decide
    have hu1 : F.uexp 1 = F.eta + F.maxExp + 1 - F.W - F.W := by
      unfold uexp; rw [Nat.min_eq_left hmax1, Nat.mul_one]
    refine add_le h1 h2 (m := 2) (e := F.uexp 1 + F.W - 1) (Nat.lt_of_lt_of_le (by decide : 2 < 2 ^ 2) (Nat.pow_le_pow_right (by omega) (by omega))) ?_ ?_
    · rw [← Nat.pow_succ']
      refine Nat.pow_lt_pow_right (by omega) ?_
      rw [hu1]
      have : F.p + 2 ≤ 2 * F.W := by
        rcases (inferInstance : F.OK).isDoubleOrFloat with rfl | rfl <;> decide
      omega
    · have := toInt_natAbs (F := F) (P a).1
      have := toInt_natAbs (F := F) (P a).2
      omega
  refine ⟨?_, ?_, ?_⟩
  · intro a ha
    rw [h.elem, h.kt]
    by_cases h1 : F.kind (P a).1 = .fin
    · by_cases h2 : F.kind (P a).2 = .fin
      · rw [h1, h2]; exact kind_fin.2 (hsum a ha (kind_fin.1 h1) (kind_fin.1 h2)).1
      · exact kind_add_right h2
    · exact kind_add_left h1
  · intro a ha hf
    rw [h.kt] at hf ⊢
    have h1 : F.kind (P a).1 = .fin := by
      by_contra hc
      have := kind_add_left (F := F) (y := (P a).2) hc
      rw [kind_fin.2 hf] at this
      exact Kind.add_ne_fin hc this.symm
    have h2 : F.kind (P a).2 = .fin := by
      by_contra hc
      have := kind_add_right (F := F) (x := (P a).1) hc
      rw [kind_fin.2 hf, Kind.add_comm] at this
      exact Kind.add_ne_fin hc this.symm
    have := (hsum a ha (kind_fin.1 h1) (kind_fin.1 h2)).2
    rw [toInt_natAbs] at this
    rw [h.e]; exact this
  · intro x hxm hf
    obtain ⟨a, ha, q, hq, rfl⟩ := mem_partNums.1 hxm
    rw [h.e] at hq
    have hq' : q = 0 ∨ q = 1 := by omega
    rcases hq' with rfl | rfl
    · have hf' : F.Finite (P a).1 := by rw [← kind_fin, ← h.k0]; exact kind_fin.2 hf
      rw [dindex_mag _ _ (h.m0 a hf')]; exact (hx a ha).1 hf'
    · have hf' : F.Finite (P a).2 := by rw [← kind_fin, ← h.k1]; exact kind_fin.2 hf
      rw [dindex_mag _ _ (h.m1 a hf')]; exact (hx a ha).2 hf'

/-- The routine behind `zdot`. -/
def dotOp (F : Fmt) (conj : Bool) (T : Tune) : ZOp ((Flt × Flt) × (Flt × Flt)) := if conj then F.dotcOp T else F.dotuOp T

theorem dotOp_ok [F.OK] (conj : Bool) (T : Tune) : (dotOp F conj T).OK := by
  cases conj
  · exact dotuOp_ok T
  · exact dotcOp_ok T

theorem dotOp_e (conj : Bool) (T : Tune) : (dotOp F conj T).e = 2 := by cases conj <;> rfl

theorem zdot_op {conj : Bool} {T : Tune} {fold n : Nat} {X : Int → Flt × Flt} {incX : Int} {Y : Int → Flt × Flt} {incY : Int} {z : Binned × Binned} :
    zdot F conj T fold n X incX Y incY z = F.zvecSum T fold (dotOp F conj T) ((gatherZ X incX n).zip (gatherZ Y incY n)) z := by
  cases conj <;> rfl

theorem dotPart_im [F.OK] (conj : Bool) (T : Tune) : DotPart F (dotOp F conj T) (fun a => dotIm F conj a.1 a.2) := by
  cases conj
  · exact ⟨rfl, fun _ => rfl, fun _ => rfl, fun _ _ => rfl, fun _ _ => rfl, fun _ => Or.inr rfl⟩
  · exact ⟨rfl, fun a => kind_flip T _, fun _ => rfl, fun a h => by
      have e : (dotOp F true T).fI a 0 = F.flip T (F.mul a.1.2 a.2.1) := rfl
      rw [e, flip_eq (x := F.mul a.1.2 a.2.1) h]; rfl, fun _ _ => rfl, fun _ => Or.inr rfl⟩

theorem dotPart_re [F.OK] (conj : Bool) (T : Tune) : DotPart F (dotOp F conj T).swap (fun a => dotRe F conj a.1 a.2) := by
  cases conj
  · exact ⟨rfl, fun _ => rfl, fun a => kind_flip T _, fun _ _ => rfl, fun a h => by
      have e : (dotOp F false T).swap.fI a 1 = F.flip T (F.mul a.1.2 a.2.2) := rfl
      rw [e, flip_eq (x := F.mul a.1.2 a.2.2) h]; rfl, fun _ => Or.inl rfl⟩
  · exact ⟨rfl, fun _ => rfl, fun _ => rfl, fun _ _ => rfl, fun _ _ => rfl, fun _ => Or.inl rfl⟩

/-- The numbers that a dot product sums in one part, in the order of the vectors. -/
def dotNums (P : Flt × Flt → Flt × Flt → Flt × Flt) (n : Nat) (X : Int → Flt × Flt) (incX : Int) (Y : Int → Flt × Flt) (incY : Int) : List Flt :=
  (List.range n).flatMap (fun (i : Nat) => [(P (X (i * incX)) (Y (i * incY))).1, (P (X (i * incX)) (Y (i * incY))).2])

theorem dotNums_eq (P : Flt × Flt → Flt × Flt → Flt × Flt) (n : Nat) (X : Int → Flt × Flt) (incX : Int) (Y : Int → Flt × Flt) (incY : Int) :
    dotNums P n X incX Y incY = ((gatherZ X incX n).zip (gatherZ Y incY n)).flatMap (fun a => [(P a.1 a.2).1, (P a.1 a.2).2]) := by
  rw [zip_gatherZ, List.flatMap_map]; rfl

/-- The finite products of one part are below `2^(MAX_EXP - W)`. -/
def DotSmall (F : Fmt) (P : Flt × Flt → Flt × Flt → Flt × Flt) (n : Nat) (X : Int → Flt × Flt) (incX : Int) (Y : Int → Flt × Flt) (incY : Int) : Prop :=
  ∀ x ∈ dotNums P n X incX Y incY, F.Finite x → 1 ≤ F.dindex x

theorem DotSmall.pairs {P : Flt × Flt → Flt × Flt → Flt × Flt} {n : Nat} {X : Int → Flt × Flt} {incX : Int} {Y : Int → Flt × Flt} {incY : Int} (h : DotSmall F P n X incX Y incY) :
    ∀ a ∈ (gatherZ X incX n).zip (gatherZ Y incY n), (F.Finite (P a.1 a.2).1 → 1 ≤ F.dindex (P a.1 a.2).1) ∧ (F.Finite (P a.1 a.2).2 → 1 ≤ F.dindex (P a.1 a.2).2) := by
  intro a ha
  unfold DotSmall at h
  rw [dotNums_eq] at h
  exact ⟨h _ (List.mem_flatMap.2 ⟨a, ha, by simp⟩), h _ (List.mem_flatMap.2 ⟨a, ha, by simp⟩)⟩

/-- **C55** (partial: no block holds more than half as many elements as the endurance, as in `C42_dot_partial`). Infinities and NaN in the dot
product of two complex vectors: each part of the converted result is special according to the products that make up
that part, whatever the other part holds. If the finite products of the part are below `2^(MAX_EXP - W)`, a single
kind of infinity gives exactly that infinity. -/
theorem C55_dot_partial [F.OK] {conj : Bool} {T : Tune} (hT : T.OK F) {n : Nat} (hnb : 2 * min T.nb n ≤ F.endurance) {fold : Nat} (hfold : 2 ≤ fold) {h : Hist} (hl : h.Legal F)
    {X Y : Int → Flt × Flt} {incX incY : Int} (hN : 2 * n + h.nums.length ≤ F.capacity) (y : Binned) :
    (Specials F (dotNums (dotRe F conj) n X incX Y incY) (convert F fold (zdot F conj T fold n X incX Y incY (h.eval F fold, y)).1) ∧
      (DotSmall F (dotRe F conj) n X incX Y incY ∧ (∀ x ∈ h.seen, 1 ≤ F.dindex x) →
        SpecialsExact F (dotNums (dotRe F conj) n X incX Y incY) (convert F fold (zdot F conj T fold n X incX Y incY (h.eval F fold, y)).1))) ∧
    (Specials F (dotNums (dotIm F conj) n X incX Y incY) (convert F fold (zdot F conj T fold n X incX Y incY (y, h.eval F fold)).2) ∧
      (DotSmall F (dotIm F conj) n X incX Y incY ∧ (∀ x ∈ h.seen, 1 ≤ F.dindex x) →
        SpecialsExact F (dotNums (dotIm F conj) n X incX Y incY) (convert F fold (zdot F conj T fold n X incX Y incY (y, h.eval F fold)).2))) := by
  have hlen : ((gatherZ X incX n).zip (gatherZ Y incY n)).length = n := by rw [zip_gatherZ]; simp
  rw [zdot_op, zdot_op]
  have hnb' : (dotOp F conj T).e * min T.nb ((gatherZ X incX n).zip (gatherZ Y incY n)).length ≤ F.endurance := by rw [dotOp_e, hlen]; exact hnb
  constructor
  · have hp := dotPart_re (F := F) conj T
    have := zvecSum_re_special hT (dotOp_ok conj T) hp.term hnb' hfold hl (es := (gatherZ X incX n).zip (gatherZ Y incY n))
      (by rw [partNums_length, dotOp_e, hlen]; exact hN) y (nums := dotNums (dotRe F conj) n X incX Y incY) (by rw [dotNums_eq]; exact hp.nums _)
    exact ⟨this.1, fun s => this.2 ⟨hp.safe s.1.pairs, s.2⟩⟩
  · have hp := dotPart_im (F := F) conj T
    have := zvecSum_im_special hT (dotOp_ok conj T) hp.term hnb' hfold hl (es := (gatherZ X incX n).zip (gatherZ Y incY n))
      (by rw [partNums_length, dotOp_e, hlen]; exact hN) y (nums := dotNums (dotIm F conj) n X incX Y incY) (by rw [dotNums_eq]; exact hp.nums _)
    exact ⟨this.1, fun s => this.2 ⟨hp.safe s.1.pairs, s.2⟩⟩

/-- **C55** (NaN, for every block size). If a product of a part is NaN then that part of the converted result is NaN, for
every tuning including the shipped block size, every initial accumulator and any number of elements. -/
theorem C55_nan [F.OK] {conj : Bool} {T : Tune} (hT : T.OK F) {fold : Nat} (hfold : 1 ≤ fold)
    {n : Nat} {X Y : Int → Flt × Flt} {incX incY : Int} (z : Binned × Binned) (hz : z.1.pri.length = fold ∧ z.2.pri.length = fold) :
    ((∃ x ∈ dotNums (dotRe F conj) n X incX Y incY, F.isNaN x = true) → F.isNaN (convert F fold (zdot F conj T fold n X incX Y incY z).1) = true) ∧
    ((∃ x ∈ dotNums (dotIm F conj) n X incX Y incY, F.isNaN x = true) → F.isNaN (convert F fold (zdot F conj T fold n X incX Y incY z).2) = true) := by
  have tr : ∀ {O : ZOp ((Flt × Flt) × (Flt × Flt))} {P : Flt × Flt → Flt × Flt → Flt × Flt}, DotPart F O (fun a => P a.1 a.2) → (∃ x ∈ dotNums P n X incX Y incY, F.isNaN x = true) →
      ∃ x ∈ partNums O.e O.fI ((gatherZ X incX n).zip (gatherZ Y incY n)), F.isNaN x = true := by
    intro O P hp ⟨x, hx, hn⟩
    rw [dotNums_eq] at hx
    obtain ⟨a, ha, hxa⟩ := List.mem_flatMap.1 hx
    have he := hp.e
    rcases List.mem_cons.1 hxa with e | e
    · refine ⟨O.fI a 0, mem_partNums.2 ⟨a, ha, 0, by omega, rfl⟩, ?_⟩
      rw [← kind_nan, hp.k0, ← e]; exact kind_nan.2 hn
    · refine ⟨O.fI a 1, mem_partNums.2 ⟨a, ha, 1, by omega, rfl⟩, ?_⟩
      rw [List.mem_singleton] at e
      rw [← kind_nan, hp.k1, ← e]; exact kind_nan.2 hn
  have fin : ∀ {y : Binned}, F.kind (nth y.pri 0) = .nan → F.isNaN (convert F fold y) = true := by
    intro y hk
    rw [convert_special (by rw [hk]; simp)]; exact nan_of_kind hk
  rw [zdot_op]
  unfold zvecSum
  refine ⟨fun h => fin ?_, fun h => fin ?_⟩
  · have hO := dotOp_ok (F := F) conj T
    have hsw : (dotOp F conj T).swap.OK := ⟨hO.e1, hO.zI, hO.zR⟩
    have := zvecLoop_nan hT hsw (dotPart_re conj T).term hfold _ _ (dep := 0) (y0 := z.2) (y1 := z.1) (Nat.le_refl _) hz.1 (tr (dotPart_re conj T) h)
    have e := zvecLoop_swap (F := F) T fold (dotOp F conj T) ((gatherZ X incX n).zip (gatherZ Y incY n)).length ((gatherZ X incX n).zip (gatherZ Y incY n)) 0 z
    have e2 : z.swap = (z.2, z.1) := rfl
    rw [e2] at e
    rw [e] at this
    exact this
  · exact zvecLoop_nan hT (dotOp_ok conj T) (dotPart_im conj T).term hfold _ _ (dep := 0) (y0 := z.1) (y1 := z.2) (Nat.le_refl _) hz.2 (tr (dotPart_im conj T) h)

/-- **C55** (infinities and NaN, for every block size). For every tuning including the shipped block size, every initial
accumulator and any number of elements: a NaN product of a part, or products of both infinite signs, make that part of the
converted result NaN; an infinite product makes it that infinity or NaN, whatever the other part holds. -/
theorem C55_specials [F.OK] {conj : Bool} {T : Tune} (hT : T.OK F) {fold : Nat} (hfold : 1 ≤ fold)
    {n : Nat} {X Y : Int → Flt × Flt} {incX incY : Int} (z : Binned × Binned) (hz : z.1.pri.length = fold ∧ z.2.pri.length = fold) :
    Specials F (dotNums (dotRe F conj) n X incX Y incY) (convert F fold (zdot F conj T fold n X incX Y incY z).1) ∧
    Specials F (dotNums (dotIm F conj) n X incX Y incY) (convert F fold (zdot F conj T fold n X incX Y incY z).2) := by
  rw [zdot_op]
  unfold zvecSum
  constructor
  · have hO := dotOp_ok (F := F) conj T
    have hp := dotPart_re (F := F) conj T
    have hsw : (dotOp F conj T).swap.OK := ⟨hO.e1, hO.zI, hO.zR⟩
    refine (specials_of (safe := False) ?_).1
    rw [dotNums_eq, hp.nums]
    intro hk
    have := zvecLoop_inf hT hsw hp.term hfold _ _ (dep := 0) (y0 := z.2) (y1 := z.1) (Nat.le_refl _) hz.1 hk
    have e := zvecLoop_swap (F := F) T fold (dotOp F conj T) ((gatherZ X incX n).zip (gatherZ Y incY n)).length ((gatherZ X incX n).zip (gatherZ Y incY n)) 0 z
    have e2 : z.swap = (z.2, z.1) := rfl
    rw [e2] at e
    rw [e] at this
    exact this
  · have hp := dotPart_im (F := F) conj T
    refine (specials_of (safe := False) ?_).1
    rw [dotNums_eq, hp.nums]
    intro hk
    exact zvecLoop_inf hT (dotOp_ok conj T) hp.term hfold _ _ (dep := 0) (y0 := z.1) (y1 := z.2) (Nat.le_refl _) hz.2 hk

/-- A complex vector with a NaN in the real part and an infinity in the imaginary part, blocks of two elements:
the parts do not disturb each other. -/
example :
    f64.isNaN (f64.rzsum ⟨2, 1, 2, 1, 1, false⟩ 3 5 (fun i => if i = 1 then (f64.nan, f64.one) else if i = 3 then (f64.one, f64.inf true) else (f64.one, f64.pow2 900)) 1).1 = true ∧
    (f64.rzsum ⟨2, 1, 2, 1, 1, false⟩ 3 5 (fun i => if i = 1 then (f64.nan, f64.one) else if i = 3 then (f64.one, f64.inf true) else (f64.one, f64.pow2 900)) 1).2 = f64.inf true ∧
    (f64.rzsum ⟨2, 1, 2, 1, 1, false⟩ 3 5 (fun i => if i = 1 then (f64.one, f64.one) else if i = 3 then (f64.one, f64.inf true) else (f64.one, f64.pow2 900)) 1).1 = f64.ofInt 5 := by
  decide +kernel

/-- A dot product with an infinite product in the real part only. -/
example : (f64.rzdotc ⟨2, 1, 2, 1, 1, false⟩ 3 3 (fun i => if i = 1 then (f64.pow2 1000, zero) else (f64.one, f64.one)) 1 (fun i => if i = 1 then (f64.pow2 1000, zero) else (f64.one, zero)) 1)
    = (f64.inf false, f64.ofInt (-2)) := by
  decide +kernel

end Repro
