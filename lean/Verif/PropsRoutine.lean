import Verif.PropsGenRunZ
import Verif.PropsVec
/-!
# C64: statements

`rvecM`, `zvecM` (`Verif/GenRun.lean`) execute a vector routine in one flat memory, the kernels being the assignments the
generator emits. The theorems compare the accumulator found in memory afterwards (`view`, `cview`) with the list models.
-/

namespace Repro
open Fmt
variable {F : Fmt}

section
variable [F.OK] {T : Tune} (hT : T.OK F) {expand : Bool} {fold : Nat} (hf : 1 ≤ fold) (he : expand = true → 2 ≤ fold) {l : Loc}
  (n : Nat) (X incX Z incZ : Int) (jA jD : Nat → Regs) (m : Mem)
include hT hf he

/-- **C64.** `binnedBLAS_dmdsum`: if the words of the accumulator are distinct and the vector does not overlap it, the
accumulator becomes what the list model computes and no other word of the memory is written. -/
theorem C64_sum (hs : Sep fold l) (hX : ∀ i : Nat, i < n → ¬ l.In fold (X + i * incX)) :
    view fold l (F.rvecM T .sum expand fold l n X incX Z incZ jA jD m) = F.dmdsum T fold n (fun a => m (X + a)) incX (view fold l m)
    ∧ ∀ a, ¬ l.In fold a → F.rvecM T .sum expand fold l n X incX Z incZ jA jD m a = m a := by
  have h := rloopM_spec hT (Or.inl rfl) hf he hs incX incZ jA jD n n X Z 0 m (fun i hi => ⟨hX i hi, fun hp => by cases hp⟩)
  refine ⟨h.1.trans ?_, h.2⟩
  unfold dmdsum vecSum
  rw [gather_length]
  rfl

/-- **C64.** `binnedBLAS_dmdasum`. -/
theorem C64_asum (hs : Sep fold l) (hX : ∀ i : Nat, i < n → ¬ l.In fold (X + i * incX)) :
    view fold l (F.rvecM T .asum expand fold l n X incX Z incZ jA jD m) = F.dmdasum T fold n (fun a => m (X + a)) incX (view fold l m)
    ∧ ∀ a, ¬ l.In fold a → F.rvecM T .asum expand fold l n X incX Z incZ jA jD m a = m a := by
  have h := rloopM_spec hT (Or.inr (Or.inl rfl)) hf he hs incX incZ jA jD n n X Z 0 m (fun i hi => ⟨hX i hi, fun hp => by cases hp⟩)
  refine ⟨h.1.trans ?_, h.2⟩
  unfold dmdasum vecSum
  rw [List.length_map, gather_length]
  unfold gather
  rw [List.map_map]
  rfl

/-- **C64.** `binnedBLAS_dmddot`. -/
theorem C64_dot (hs : Sep fold l) (hX : ∀ i : Nat, i < n → ¬ l.In fold (X + i * incX)) (hZ : ∀ i : Nat, i < n → ¬ l.In fold (Z + i * incZ)) :
    view fold l (F.rvecM T .dot expand fold l n X incX Z incZ jA jD m)
      = F.dmddot T fold n (fun a => m (X + a)) incX (fun a => m (Z + a)) incZ (view fold l m)
    ∧ ∀ a, ¬ l.In fold a → F.rvecM T .dot expand fold l n X incX Z incZ jA jD m a = m a := by
  have h := rloopM_spec hT (Or.inr (Or.inr rfl)) hf he hs incX incZ jA jD n n X Z 0 m (fun i hi => ⟨hX i hi, fun _ => hZ i hi⟩)
  refine ⟨h.1.trans ?_, h.2⟩
  unfold dmddot vecSum
  rw [zip_gather, List.length_map, List.length_range]
  rfl

/-- **C64.** `binnedBLAS_zmzsum`; the vector occupies the words `X + 2*i*incX` and the ones behind them. -/
theorem C64_zsum (hs : CSep fold l) (hX : ∀ i : Nat, i < n → ¬ l.CIn fold (X + i * 2 * incX) ∧ ¬ l.CIn fold (X + i * 2 * incX + 1)) :
    cview fold l (F.zvecM T .sum expand fold l n X incX Z incZ jA jD m)
      = F.zmzsum T fold n (fun a => (m (X + 2 * a), m (X + 2 * a + 1))) incX (cview fold l m)
    ∧ ∀ a, ¬ l.CIn fold a → F.zvecM T .sum expand fold l n X incX Z incZ jA jD m a = m a := by
  have h := zloopM_spec hT (zlink_sum hT) hf he hs incX incZ jA jD n n X Z 0 m (fun i hi => ⟨hX i hi, fun hp => by cases hp⟩)
  refine ⟨h.1.trans ?_, h.2⟩
  have e : gatherZ (fun a => (m (X + 2 * a), m (X + 2 * a + 1))) incX n = zvals (fun x _ => x) m X Z incX incZ n := by
    unfold gatherZ zvals Mem.pair
    apply List.map_congr_left
    intro i _
    dsimp only
    rw [show X + 2 * ((i : Int) * incX) = X + i * 2 * incX by ring]
  unfold zmzsum zvecSum
  rw [e, zvals_length]

omit hT hf he in
theorem pairs_eq (m : Mem) (X Z incX incZ : Int) (n : Nat) :
    (gatherZ (fun a => (m (X + 2 * a), m (X + 2 * a + 1))) incX n).zip (gatherZ (fun a => (m (Z + 2 * a), m (Z + 2 * a + 1))) incZ n)
      = zvals Prod.mk m X Z incX incZ n := by
  rw [← gatherZ_zip, gatherZ_behind0, gatherZ_behind1]
  unfold gatherZ Mem.pair
  congr 1
  · apply List.map_congr_left
    intro i _
    dsimp only
    rw [show X + 2 * ((i : Int) * incX) = X + i * 2 * incX by ring]
  · apply List.map_congr_left
    intro i _
    dsimp only
    rw [show Z + 2 * ((i : Int) * incZ) = Z + i * 2 * incZ by ring]

/-- **C64.** `binnedBLAS_zmzdotu`. -/
theorem C64_dotu (hs : CSep fold l) (hX : ∀ i : Nat, i < n → ¬ l.CIn fold (X + i * 2 * incX) ∧ ¬ l.CIn fold (X + i * 2 * incX + 1))
    (hZ : ∀ i : Nat, i < n → ¬ l.CIn fold (Z + i * 2 * incZ) ∧ ¬ l.CIn fold (Z + i * 2 * incZ + 1)) :
    cview fold l (F.zvecM T .dotu expand fold l n X incX Z incZ jA jD m)
      = F.zmzdotu T fold n (fun a => (m (X + 2 * a), m (X + 2 * a + 1))) incX (fun a => (m (Z + 2 * a), m (Z + 2 * a + 1))) incZ (cview fold l m)
    ∧ ∀ a, ¬ l.CIn fold a → F.zvecM T .dotu expand fold l n X incX Z incZ jA jD m a = m a := by
  have h := zloopM_spec hT (zlink_dotu hT) hf he hs incX incZ jA jD n n X Z 0 m (fun i hi => ⟨hX i hi, fun _ => hZ i hi⟩)
  refine ⟨h.1.trans ?_, h.2⟩
  unfold zmzdotu zvecSum
  rw [pairs_eq, zvals_length]

/-- **C64.** `binnedBLAS_zmzdotc`. -/
theorem C64_dotc (hs : CSep fold l) (hX : ∀ i : Nat, i < n → ¬ l.CIn fold (X + i * 2 * incX) ∧ ¬ l.CIn fold (X + i * 2 * incX + 1))
    (hZ : ∀ i : Nat, i < n → ¬ l.CIn fold (Z + i * 2 * incZ) ∧ ¬ l.CIn fold (Z + i * 2 * incZ + 1)) :
    cview fold l (F.zvecM T .dotc expand fold l n X incX Z incZ jA jD m)
      = F.zmzdotc T fold n (fun a => (m (X + 2 * a), m (X + 2 * a + 1))) incX (fun a => (m (Z + 2 * a), m (Z + 2 * a + 1))) incZ (cview fold l m)
    ∧ ∀ a, ¬ l.CIn fold a → F.zvecM T .dotc expand fold l n X incX Z incZ jA jD m a = m a := by
  have h := zloopM_spec hT (zlink_dotc hT) hf he hs incX incZ jA jD n n X Z 0 m (fun i hi => ⟨hX i hi, fun _ => hZ i hi⟩)
  refine ⟨h.1.trans ?_, h.2⟩
  unfold zmzdotc zvecSum
  rw [pairs_eq, zvals_length]

end

/-- **C64**, end to end. `reproBLAS_rdsum`, `rdasum`, `rddot` executed statement by statement in memory: an accumulator is set to
zero, the routine runs on it, the result is converted. The number returned is the conversion of the specified sum (`specSum`,
which only depends on the multiset of the summands). -/
theorem C64_native [F.OK] {T : Tune} (hT : T.OK F) {expand : Bool} {fold : Nat} (hf : 2 ≤ fold) {l : Loc} (hs : Sep fold l)
    {n : Nat} (hN : n ≤ F.capacity) {X incX Z incZ : Int} (jA jD : Nat → Regs) {m : Mem}
    (hX : ∀ i : Nat, i < n → ¬ l.In fold (X + i * incX)) :
    ((∀ i : Nat, i < n → F.Finite (m (X + i * incX))) →
      F.convertM fold l (F.rvecM T .sum expand fold l n X incX Z incZ jA jD (dmsetzeroM fold l m))
        = convert F fold (F.specSum fold ((List.range n).map (fun (i : Nat) => m (X + i * incX))))
      ∧ F.convertM fold l (F.rvecM T .asum expand fold l n X incX Z incZ jA jD (dmsetzeroM fold l m))
        = convert F fold (F.specSum fold ((List.range n).map (fun (i : Nat) => fabs (m (X + i * incX))))))
    ∧ ((∀ i : Nat, i < n → ¬ l.In fold (Z + i * incZ)) → (∀ i : Nat, i < n → F.Finite (F.mul (m (X + i * incX)) (m (Z + i * incZ)))) →
      F.convertM fold l (F.rvecM T .dot expand fold l n X incX Z incZ jA jD (dmsetzeroM fold l m))
        = convert F fold (F.specSum fold ((List.range n).map (fun (i : Nat) => F.mul (m (X + i * incX)) (m (Z + i * incZ)))))) := by
  have h0 := dmsetzeroM_refines (n := fold) hs m
  have hfr : ∀ i : Nat, i < n → dmsetzeroM fold l m (X + i * incX) = m (X + i * incX) := fun i hi => h0.2 _ (hX i hi)
  have hg : gather (fun a => dmsetzeroM fold l m (X + a)) incX n = (List.range n).map (fun (i : Nat) => m (X + i * incX)) := by
    unfold gather
    exact List.map_congr_left (fun i hi => hfr i (List.mem_range.mp hi))
  have w := C36_wrappers hT hf (n := n) (X := fun a => dmsetzeroM fold l m (X + a)) (Y := fun a => dmsetzeroM fold l m (Z + a)) (incX := incX) (incY := incZ) hN
  refine ⟨fun hx => ?_, fun hZ hx => ?_⟩
  · have w1 := w.1 (fun i hi => by rw [hfr i hi]; exact hx i hi)
    rw [hg] at w1
    refine ⟨?_, ?_⟩
    · rw [C31_convert hf, (C64_sum hT (by omega) (fun _ => hf) n X incX Z incZ jA jD _ hs hX).1, h0.1]
      exact w1.1
    · rw [C31_convert hf, (C64_asum hT (by omega) (fun _ => hf) n X incX Z incZ jA jD _ hs hX).1, h0.1]
      have := w1.2
      rw [List.map_map] at this
      exact this
  · have hfz : ∀ i : Nat, i < n → dmsetzeroM fold l m (Z + i * incZ) = m (Z + i * incZ) := fun i hi => h0.2 _ (hZ i hi)
    have w2 := w.2 (fun i hi => by rw [hfr i hi, hfz i hi]; exact hx i hi)
    rw [C31_convert hf, (C64_dot hT (by omega) (fun _ => hf) n X incX Z incZ jA jD _ hs hX hZ).1, h0.1]
    refine Eq.trans w2 ?_
    unfold products
    congr 2
    exact List.map_congr_left (fun i hi => by dsimp only; rw [hfr i (List.mem_range.mp hi), hfz i (List.mem_range.mp hi)])

/-- **C64**, reproducibility at the level of the machine. Two machines with different vector units, tunings, register
contents, memory layouts and strides, each adding a vector to an accumulator with the same contents (any legal history): if
the two vectors are permutations of each other, the accumulators are the same afterwards, bit for bit. -/
theorem C64_reproducible [F.OK] {T T' : Tune} (hT : T.OK F) (hT' : T'.OK F) {expand expand' : Bool} {fold : Nat} (hf : 2 ≤ fold) {l l' : Loc}
    (hs : Sep fold l) (hs' : Sep fold l') {n : Nat} {X X' incX incX' Z Z' incZ incZ' : Int} (jA jD jA' jD' : Nat → Regs) {m m' : Mem}
    (hX : ∀ i : Nat, i < n → ¬ l.In fold (X + i * incX)) (hX' : ∀ i : Nat, i < n → ¬ l'.In fold (X' + i * incX'))
    (hp : ((List.range n).map (fun (i : Nat) => m (X + i * incX))).Perm ((List.range n).map (fun (i : Nat) => m' (X' + i * incX'))))
    {h : Hist} (hl : h.Legal F) (hst : n = 0 → h.Settled) (hv : view fold l m = h.eval F fold) (hv' : view fold l' m' = h.eval F fold)
    (hx : ∀ i : Nat, i < n → F.Finite (m (X + i * incX))) (hN : n + h.nums.length ≤ F.capacity) :
    view fold l (F.rvecM T .sum expand fold l n X incX Z incZ jA jD m) = view fold l' (F.rvecM T' .sum expand' fold l' n X' incX' Z' incZ' jA' jD' m') := by
  rw [(C64_sum hT (by omega) (fun _ => hf) n X incX Z incZ jA jD m hs hX).1, (C64_sum hT' (by omega) (fun _ => hf) n X' incX' Z' incZ' jA' jD' m' hs' hX').1, hv, hv']
  exact C04_independent hT hT' hf hl (X := fun a => m (X + a)) (X' := fun a => m' (X' + a)) hp hst hx hN

/-! Concrete cases. -/

/-- An accumulator with stride 2 at 100 and its carries at 200, the vector at 0. -/
example : Sep 3 ⟨100, 2, 200, 1⟩ ∧ ∀ i : Nat, i < 50 → ¬ (Loc.mk 100 2 200 1).In 3 (0 + i * 2) := by
  refine ⟨⟨?_, ?_, ?_⟩, ?_⟩
  · intro i hi j hj; simp only [Loc.P]; omega
  · intro i hi j hj; simp only [Loc.C]; omega
  · intro i hi j hj; simp only [Loc.P, Loc.C]; omega
  · rintro i hi ⟨j, hj, h | h⟩
    · simp only [Loc.P] at h; omega
    · simp only [Loc.C] at h; omega

/-- The memory after `binned_dmsetzero` and `binnedBLAS_dmdsum` on the numbers `1, 2, 4`. -/
example : view 2 ⟨100, 1, 110, 1⟩ (f32.rvecM gT .sum true 2 ⟨100, 1, 110, 1⟩ 3 0 1 0 1 (fun _ => gσ) (fun _ => gσ)
      (dmsetzeroM 2 ⟨100, 1, 110, 1⟩ (fun a => f32.pow2 a)))
    = f32.specSum 2 [f32.pow2 0, f32.pow2 1, f32.pow2 2] := by decide +kernel

end Repro
