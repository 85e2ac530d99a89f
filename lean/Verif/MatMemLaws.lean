import Verif.MatMemWrap
import Verif.PropsRoutine
import Verif.PropsZGemm2
/-!
# The element types of the matrix products in flat memory
-/

namespace Repro
open Fmt
variable {F : Fmt}

theorem span_packed {n : Nat} {y x : Int} : Span y (2 * n) x ↔ (packed n y).In n x := by
  rw [packed_in]; unfold Span dbnum; push_cast; rfl

theorem span_zpacked {n : Nat} {y x : Int} : Span y (4 * n) x ↔ (zpacked n y).CIn n x := by
  rw [zpacked_in]; unfold Span zbnum; push_cast; rfl

theorem view_congr_in {n : Nat} {l : Loc} {m m' : Mem} (h : ∀ a, l.In n a → m a = m' a) : view n l m = view n l m' := by
  unfold view
  congr 1
  · exact List.map_congr_left fun i hi => h _ ⟨i, List.mem_range.1 hi, Or.inl rfl⟩
  · exact List.map_congr_left fun i hi => h _ ⟨i, List.mem_range.1 hi, Or.inr rfl⟩

/-- Real numbers and packed binned values. -/
def realAbs (F : Fmt) (T : Tune) (fold : Nat) : MAbs Flt Binned :=
  ⟨fun m y => view fold (packed fold y) m, F.dotR T fold, F.dmdconv fold, dmsetzero fold, convert F fold⟩

/-- Complex numbers and packed binned values. -/
def cplxAbs (F : Fmt) (T : Tune) (fold : Nat) (conj : Bool) : MAbs (Flt × Flt) (Binned × Binned) :=
  ⟨fun m y => cview fold (zpacked fold y) m, F.dotZ T fold conj, fun x => (F.dmdconv fold x.1, F.dmdconv fold x.2), (dmsetzero fold, dmsetzero fold), F.zconvert fold⟩

theorem realLaw [F.OK] {T : Tune} (hT : T.OK F) (expand : Bool) {fold : Nat} (hf : 2 ≤ fold) (jA jD : Junk) :
    (realOps F T expand fold jA jD).Law (realAbs F T fold) where
  wpos := Nat.le_refl 1
  get_congr h := h _ ⟨Int.le_refl _, by show _ < _ + ((1 : Nat) : Int); omega⟩
  put_get m a v := by show m.set a v a = v; unfold Mem.set; rw [if_pos rfl]
  put_frame m a v x h := by
    show m.set a v x = m x
    unfold Mem.set
    rw [if_neg]
    rintro rfl
    exact h ⟨Int.le_refl _, by show _ < _ + ((1 : Nat) : Int); omega⟩
  bget_congr h := view_congr_in fun a ha => h a (span_packed.2 ha)
  dot_spec n X incX Z incZ y m hX hZ := by
    have hsp : ∀ {a x : Int}, x = a → Span a 1 x := fun e => ⟨by omega, by omega⟩
    have h := C64_dot hT (by omega) (fun _ => hf) (l := packed fold y) (expand := expand) n X incX Z incZ (jA m X Z y) (jD m X Z y) m (packed_sep fold y)
      (fun i hi hin => hX i hi _ (hsp (by show _ = X + ((1 : Nat) : Int) * _; rw [Int.natCast_one, Int.one_mul])) (span_packed.2 hin))
      (fun i hi hin => hZ i hi _ (hsp (by show _ = Z + ((1 : Nat) : Int) * _; rw [Int.natCast_one, Int.one_mul])) (span_packed.2 hin))
    refine ⟨h.1.trans ?_, fun x hx => h.2 x (fun hin => hx (span_packed.2 hin))⟩
    unfold dmddot
    rw [zip_gather]
    show _ = F.dotR T fold (pairs n (fun a => m (X + ((1 : Nat) : Int) * a)) incX (fun a => m (Z + ((1 : Nat) : Int) * a)) incZ) _
    unfold dotR pairs
    rw [List.map_map]
    congr 1
    refine List.map_congr_left fun i _ => ?_
    simp only [Function.comp_apply, Int.natCast_one, Int.one_mul]
  conv_spec v y m := by
    have h := dmdconvM_refines (F := F) hf (packed_sep fold y) v m
    exact ⟨h.1, fun x hx => h.2 x (fun hin => hx (span_packed.2 hin))⟩
  clear_spec y m := by
    have h := dmsetzeroM_refines (packed_sep fold y) m
    exact ⟨h.1, fun x hx => h.2 x (fun hin => hx (span_packed.2 hin))⟩
  unconv_spec y m := C31_convert hf _ m

theorem cplxLaw [F.OK] {T : Tune} (hT : T.OK F) (expand : Bool) {fold : Nat} (hf : 2 ≤ fold) (jA jD : Junk) (conj : Bool) :
    (cplxOps F T expand fold jA jD conj).Law (cplxAbs F T fold conj) where
  wpos := by show 1 ≤ 2; omega
  get_congr {m m' a} h := by
    show (m a, m (a + 1)) = (m' a, m' (a + 1))
    rw [h a ⟨Int.le_refl _, by show _ < _ + ((2 : Nat) : Int); omega⟩, h (a + 1) ⟨by omega, by show _ < _ + ((2 : Nat) : Int); omega⟩]
  put_get m a v := by
    show (((m.set a v.1).set (a + 1) v.2) a, ((m.set a v.1).set (a + 1) v.2) (a + 1)) = v
    unfold Mem.set
    rw [if_neg (by omega), if_pos rfl, if_pos rfl]
  put_frame m a v x h := by
    show ((m.set a v.1).set (a + 1) v.2) x = m x
    unfold Mem.set
    rw [if_neg, if_neg]
    · rintro rfl; exact h ⟨Int.le_refl _, by show _ < _ + ((2 : Nat) : Int); omega⟩
    · rintro rfl; exact h ⟨by omega, by show _ < _ + ((2 : Nat) : Int); omega⟩
  bget_congr {m m' y} h := by
    show (view _ _ m, view _ _ m) = (view _ _ m', view _ _ m')
    rw [view_congr_in (fun a ha => h a (span_zpacked.2 (Or.inl ha))), view_congr_in (fun a ha => h a (span_zpacked.2 (Or.inr ha)))]
  dot_spec n X incX Z incZ y m hX hZ := by
    have e : ∀ (X inc : Int) (i : Nat), X + ((2 : Nat) : Int) * (i * inc) = X + i * 2 * inc := fun X inc i => by push_cast; ring
    have hX' : ∀ i : Nat, i < n → ¬ (zpacked fold y).CIn fold (X + i * 2 * incX) ∧ ¬ (zpacked fold y).CIn fold (X + i * 2 * incX + 1) := fun i hi =>
      ⟨fun hin => hX i hi _ (by show Span (X + ((2 : Nat) : Int) * _) 2 _; rw [e]; exact ⟨by omega, by omega⟩) (span_zpacked.2 hin),
       fun hin => hX i hi _ (by show Span (X + ((2 : Nat) : Int) * _) 2 _; rw [e]; exact ⟨by omega, by omega⟩) (span_zpacked.2 hin)⟩
    have hZ' : ∀ i : Nat, i < n → ¬ (zpacked fold y).CIn fold (Z + i * 2 * incZ) ∧ ¬ (zpacked fold y).CIn fold (Z + i * 2 * incZ + 1) := fun i hi =>
      ⟨fun hin => hZ i hi _ (by show Span (Z + ((2 : Nat) : Int) * _) 2 _; rw [e]; exact ⟨by omega, by omega⟩) (span_zpacked.2 hin),
       fun hin => hZ i hi _ (by show Span (Z + ((2 : Nat) : Int) * _) 2 _; rw [e]; exact ⟨by omega, by omega⟩) (span_zpacked.2 hin)⟩
    cases conj
    · have h := C64_dotu hT (by omega) (fun _ => hf) (l := zpacked fold y) (expand := expand) n X incX Z incZ (jA m X Z y) (jD m X Z y) m (zpacked_csep fold y) hX' hZ'
      refine ⟨h.1.trans ?_, fun x hx => h.2 x (fun hin => hx (span_zpacked.2 hin))⟩
      unfold zmzdotu
      rw [zip_gatherZ]
      rfl
    · have h := C64_dotc hT (by omega) (fun _ => hf) (l := zpacked fold y) (expand := expand) n X incX Z incZ (jA m X Z y) (jD m X Z y) m (zpacked_csep fold y) hX' hZ'
      refine ⟨h.1.trans ?_, fun x hx => h.2 x (fun hin => hx (span_zpacked.2 hin))⟩
      unfold zmzdotc
      rw [zip_gatherZ]
      rfl
  conv_spec v y m := by
    have h := C22_operation (F := F) hf (zpacked_csep fold y) (.ofNum v.1 v.2) m
    exact ⟨h.1, fun x hx => h.2 x (fun hin => hx (span_zpacked.2 hin))⟩
  clear_spec y m := by
    have h := C22_operation (F := F) hf (zpacked_csep fold y) .setzero m
    exact ⟨h.1, fun x hx => h.2 x (fun hin => hx (span_zpacked.2 hin))⟩
  unconv_spec y m := C23_packed hf y m

end Repro
