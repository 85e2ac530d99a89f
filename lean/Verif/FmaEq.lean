import Verif.FmaLemmas
/-!
# The contracted routines compute what the rounded ones compute
-/

namespace Repro
namespace Fmt
variable {F : Fmt}

theorem foldl_zipIdx_ignore {α β : Type} {f : β → α × Nat → β} {g : β → α → β} : ∀ (l : List α) (k : Nat) (s : β), (∀ s a i, a ∈ l → f s (a, i) = g s a) →
    (l.zipIdx k).foldl f s = l.foldl g s
  | [], _, _, _ => rfl
  | a :: l, k, s, h => by
    rw [List.zipIdx_cons, List.foldl_cons, List.foldl_cons, h s a k List.mem_cons_self]
    exact foldl_zipIdx_ignore l (k + 1) _ (fun s b i hb => h s b i (List.mem_cons_of_mem _ hb))

theorem map_zipIdx_ignore {α β : Type} {f : α × Nat → β} {g : α → β} : ∀ (l : List α) (k : Nat), (∀ a i, a ∈ l → f (a, i) = g a) → (l.zipIdx k).map f = l.map g
  | [], _, _ => rfl
  | a :: l, k, h => by
    rw [List.zipIdx_cons, List.map_cons, List.map_cons, h a k List.mem_cons_self]
    rw [map_zipIdx_ignore l (k + 1) (fun b i hb => h b i (List.mem_cons_of_mem _ hb))]

theorem dmddepositC_eq [F.OK] (c : Bool × Bool) (x : Flt) (pri : List Flt) : F.dmddepositC c x pri = F.dmddeposit x pri := by
  unfold dmddepositC dmddeposit
  split
  · rfl
  · split
    · cases pri with
      | nil => rfl
      | cons m ms =>
        dsimp only
        rw [add_comm_all (or1 (F.mul x F.compression)) m, mac_half, mac_half]
    · rfl

theorem kstepC_eq [F.OK] (c : Bool × Bool) (i : Bool) (x : Flt) (pri : List Flt) : F.kstepC c i x pri = F.kstep i x pri := by
  unfold kstepC kstep
  cases i with
  | false => rfl
  | true =>
    cases pri with
    | nil => rfl
    | cons m ms =>
      dsimp only
      rw [if_pos rfl, if_pos rfl, mac_half, mac_half]

theorem zstepC_eq [F.OK] (c : Bool × Bool) (i : Mode) (x : Flt) (pri : List Flt) : F.zstepC c i x pri = F.zstep i x pri := by
  cases i <;> cases pri <;> unfold zstepC zstep <;> dsimp only
  · rw [mac_one, mac_zero]
  · rw [mac_half, mac_half]

theorem kernelC_eq [F.OK] (ch : Picks) (T : Tune) (vs pri : List Flt) : F.kernelC ch T vs pri = F.kernel T vs pri := by
  unfold kernelC kernel lanesC lanes
  rw [foldl_zipIdx_ignore _ _ _ (g := fun s (d : Nat × Flt) => s.set d.1 (F.kstep (F.dmindex0 (nth pri 0)) d.2 (s.getD d.1 pri)))]
  intro s a i _
  dsimp only
  rw [kstepC_eq]

theorem kernelZC_eq [F.OK] {α : Type} (ch : Picks) (T : Tune) (mode : Mode) (e : Nat) (f : α → Nat → Flt) (zfill : α) (es : List α) (pri : List Flt) :
    F.kernelZC ch T mode e f zfill es pri = F.kernelZ T mode e f zfill es pri := by
  unfold kernelZC kernelZ lanesZC lanesZ
  rw [foldl_zipIdx_ignore _ _ _ (g := fun s (d : Nat × Flt) => s.set d.1 (F.zstep mode d.2 (s.getD d.1 pri)))]
  intro s a i _
  dsimp only
  rw [zstepC_eq]

theorem vecLoopC_eq [F.OK] (ch : Nat → Picks) (T : Tune) (fold : Nat) : ∀ (fuel : Nat) (vs : List Flt) (d : Nat) (y : Binned),
    F.vecLoopC ch T fold fuel vs d y = F.vecLoop T fold fuel vs d y
  | 0, _, _, _ => rfl
  | fuel + 1, vs, d, y => by
    unfold vecLoopC vecLoop
    simp only [kernelC_eq, vecLoopC_eq ch T fold fuel]

theorem ssqLoopC_eq [F.OK] (ch : Nat → Picks) (T : Tune) (fold : Nat) : ∀ (fuel : Nat) (vs : List Flt) (d : Nat) (s : Flt) (y : Binned),
    F.ssqLoopC ch T fold fuel vs d s y = F.ssqLoop T fold fuel vs d s y
  | 0, _, _, _, _ => rfl
  | fuel + 1, vs, d, s, y => by
    unfold ssqLoopC ssqLoop
    simp only [kernelC_eq, ssqLoopC_eq ch T fold fuel]

theorem zasumLoopC_eq [F.OK] (chR chI : Nat → Picks) (T : Tune) (fold : Nat) : ∀ (fuel : Nat) (es : List (Flt × Flt)) (d : Nat) (s : Binned × Binned) (y : Binned),
    F.zasumLoopC chR chI T fold fuel es d s y = F.zasumLoop T fold fuel es d s y
  | 0, _, _, _, _ => rfl
  | fuel + 1, vs, d, s, y => by
    unfold zasumLoopC zasumLoop
    simp only [kernelZC_eq, zasumLoopC_eq chR chI T fold fuel]

theorem zssqLoopC_eq [F.OK] (chR chI : Nat → Picks) (T : Tune) (fold : Nat) (sY : Flt) : ∀ (fuel : Nat) (es : List (Flt × Flt)) (d : Nat) (scl : Flt) (s : Binned × Binned) (y : Binned),
    F.zssqLoopC chR chI T fold sY fuel es d scl s y = F.zssqLoop T fold sY fuel es d scl s y
  | 0, _, _, _, _, _ => rfl
  | fuel + 1, vs, d, scl, s, y => by
    unfold zssqLoopC zssqLoop
    simp only [kernelZC_eq, zssqLoopC_eq chR chI T fold sY fuel]

/-- Exceptional loops run with a finite maximum only on an infinite accumulator. -/
def TermsOk (F : Fmt) (t u : Flt) : Prop := t = u ∨ (F.Finite t ∧ F.Finite u)

theorem add_nonfin [F.OK] {m t u : Flt} (hm : ¬ F.Finite m) (h : TermsOk F t u) : F.add m t = F.add m u ∧ ¬ F.Finite (F.add m u) := by
  have hk : F.kind m ≠ .fin := mt kind_fin.1 hm
  refine ⟨?_, ?_⟩
  · rcases h with rfl | ⟨h1, h2⟩
    · rfl
    · have ⟨a1, a2⟩ := finite_iff.1 h1
      have ⟨b1, b2⟩ := finite_iff.1 h2
      unfold add
      rw [a1, a2, b1, b2]
      by_cases hn : F.isNaN m = true
      · simp [hn]
      · have hn' : F.isNaN m = false := by simpa using hn
        have hi : F.isInf m = true := by
          rcases special_of hm with h | h
          · exact absurd h hn
          · exact h
        simp [hn', hi]
  · intro hc
    exact hm (add_finite_args hc).1

theorem foldl_nonfin [F.OK] {α : Type} {t u : α → Flt} : ∀ (l : List α) {m : Flt}, ¬ F.Finite m → (∀ a ∈ l, TermsOk F (t a) (u a)) →
    (l.map t).foldl F.add m = (l.map u).foldl F.add m
  | [], _, _, _ => rfl
  | a :: l, m, hm, h => by
    have := add_nonfin hm (h a List.mem_cons_self)
    rw [List.map_cons, List.map_cons, List.foldl_cons, List.foldl_cons, this.1]
    exact foldl_nonfin l this.2 (fun b hb => h b (List.mem_cons_of_mem _ hb))

end Fmt
end Repro
