import Verif.ThreadsProgs
/-!
# The accesses of the operations on binned values
-/

namespace Repro
open Fmt Prog
variable {F : Fmt} {α β : Type} {W R : Int → Prop} {s : Nat → Prop}

/-- The index of any number is an index of the table, whatever the number. -/
theorem dindex_le_max (hF : F = f64 ∨ F = f32) (x : Flt) : F.dindex x ≤ F.maxIndex := by
  unfold dindex
  split
  · split
    · exact le_refl _
    · exact Nat.min_le_right _ _
  · rename_i h
    have : (F.maxExp + F.bias - F.expo x) / F.W ≤ (F.maxExp + F.bias - 1) / F.W := Nat.div_le_div_right (by omega)
    refine this.trans ?_
    rcases hF with rfl | rfl <;> decide +kernel

/-- ... and so is the index read off any word. -/
theorem dmindex_le_max (hF : F = f64 ∨ F = f32) (x : Flt) : F.dmindex x ≤ F.maxIndex := by
  unfold dmindex
  have : (F.maxExp + F.p - F.W + 1 + F.bias - F.expo x) / F.W ≤ (F.maxExp + F.p - F.W + 1 + F.bias) / F.W := Nat.div_le_div_right (by omega)
  refine this.trans ?_
  rcases hF with rfl | rfl <;> decide +kernel

theorem full_of {fold k i : Nat} (hm : fold ≤ F.maxFold) (hk : k ≤ F.maxIndex) (hi : i < fold) : Full F (k + i) := by
  unfold Full binsSize; omega

theorem mem_downTo {fold lo i : Nat} (h : i ∈ downTo fold lo) : lo ≤ i ∧ i < fold := by
  unfold downTo at h
  have := List.mem_range'_1.1 (List.mem_reverse.1 h)
  omega

theorem Ok.setzero {fold : Nat} {l : Loc} (hW : ∀ a, l.In fold a → W a) : Ok F W R s (dmsetzeroP fold l) :=
  Ok.loop (fun _ hi => Ok.bind (Ok.wr _ (hW _ (l.inP (List.mem_range.1 hi)))) (fun _ => Ok.wr _ (hW _ (l.inC (List.mem_range.1 hi)))))

theorem Ok.dmdmset {fold : Nat} {x y : Loc} (hR : ∀ a, x.In fold a → R a) (hW : ∀ a, y.In fold a → W a) : Ok F W R s (dmdmsetP fold x y) :=
  Ok.loop (fun _ hi => Ok.bind (Ok.rd (hR _ (x.inP (List.mem_range.1 hi)))) (fun _ => Ok.bind (Ok.wr _ (hW _ (y.inP (List.mem_range.1 hi)))) (fun _ =>
    Ok.bind (Ok.rd (hR _ (x.inC (List.mem_range.1 hi)))) (fun _ => Ok.wr _ (hW _ (y.inC (List.mem_range.1 hi)))))))

variable (hF : F = f64 ∨ F = f32) {fold : Nat} (hf : 2 ≤ fold) (hm : fold ≤ F.maxFold)
include hF hf hm

theorem Ok.dmdupdate (x : Flt) {l : Loc} (hR : ∀ a, l.In fold a → R a) (hW : ∀ a, l.In fold a → W a) : Ok F W R s (F.dmdupdateP fold x l) := by
  have fill : ∀ n, n ≤ fold → Ok F W R (fun i => s i ∨ Full F i) (Prog.loop (fun i => (Prog.bin (F.dindex x + i)).bind fun v => (Prog.wr (l.P i) v).bind fun _ => Prog.wr (l.C i) zero) (List.range n)) := fun n hn =>
    Ok.loop (fun i hi => by
      have hi := List.mem_range.1 hi
      exact Ok.bind (Ok.bin (Or.inr (full_of hm (dindex_le_max hF x) (by omega : i < fold)))) (fun _ => Ok.bind (Ok.wr _ (hW _ (l.inP (by omega)))) (fun _ => Ok.wr _ (hW _ (l.inC (by omega))))))
  unfold dmdupdateP
  simp only [bind_eq]
  refine Ok.bind (Ok.rd (hR _ (by rw [← Loc.P0]; exact l.inP (by omega)))) (fun y0 => ?_)
  refine Ok.ite (fun _ => Ok.ret ()) (fun _ => Ok.ite (fun _ => Ok.dmbins hF (fill _ (le_refl _))) (fun _ => Ok.ite (fun _ => ?_) (fun _ => Ok.ret ())))
  refine Ok.bind (Ok.loop (fun i hi => ?_)) (fun _ => Ok.dmbins hF (fill _ (Nat.min_le_left _ _)))
  have hi := mem_downTo hi
  exact Ok.bind (Ok.rd (hR _ (l.inP (by omega)))) (fun _ => Ok.bind (Ok.wr _ (hW _ (l.inP (by omega)))) (fun _ => Ok.bind (Ok.rd (hR _ (l.inC (by omega)))) (fun _ => Ok.wr _ (hW _ (l.inC (by omega))))))

omit hF hf hm in
theorem Ok.depositLoop {l : Loc} (hR : ∀ a, l.In fold a → R a) (hW : ∀ a, l.In fold a → W a) (n i : Nat) (x : Flt) (h : i + n < fold) : Ok F W R s (F.depositLoopP l n i x) := by
  induction n generalizing i x with
  | zero => exact Ok.bind (Ok.rd (hR _ (l.inP (by omega)))) (fun _ => Ok.wr _ (hW _ (l.inP (by omega))))
  | succ n ih => exact Ok.bind (Ok.rd (hR _ (l.inP (by omega)))) (fun _ => Ok.bind (Ok.wr _ (hW _ (l.inP (by omega)))) (fun _ => ih _ _ (by omega)))

omit hF hm in
theorem Ok.dmddeposit (x : Flt) {l : Loc} (hR : ∀ a, l.In fold a → R a) (hW : ∀ a, l.In fold a → W a) : Ok F W R s (F.dmddepositP fold x l) := by
  have h0 : l.In fold l.pri := by rw [← Loc.P0]; exact l.inP (by omega)
  unfold dmddepositP
  simp only [bind_eq]
  refine Ok.bind (Ok.rd (hR _ h0)) (fun y0 => ?_)
  exact Ok.ite (fun _ => Ok.wr _ (hW _ h0)) (fun _ => Ok.ite (fun _ => Ok.bind (Ok.wr _ (hW _ h0)) (fun _ => Ok.depositLoop hR hW _ _ _ (by omega))) (fun _ => Ok.depositLoop hR hW _ _ _ (by omega)))

omit hF hm in
theorem Ok.dmrenorm {l : Loc} (hR : ∀ a, l.In fold a → R a) (hW : ∀ a, l.In fold a → W a) : Ok F W R s (F.dmrenormP fold l) := by
  have h0 : l.In fold l.pri := by rw [← Loc.P0]; exact l.inP (by omega)
  unfold dmrenormP
  simp only [bind_eq]
  refine Ok.bind (Ok.rd (hR _ h0)) (fun y0 => Ok.ite (fun _ => Ok.ret ()) (fun _ => Ok.loop (fun i hi => ?_)))
  have hi := List.mem_range.1 hi
  exact Ok.bind (Ok.rd (hR _ (l.inP hi))) (fun _ => Ok.bind (Ok.rd (hR _ (l.inC hi))) (fun _ => Ok.bind (Ok.wr _ (hW _ (l.inC hi))) (fun _ => Ok.wr _ (hW _ (l.inP hi)))))

theorem Ok.dmdadd (x : Flt) {l : Loc} (hR : ∀ a, l.In fold a → R a) (hW : ∀ a, l.In fold a → W a) : Ok F W R s (F.dmdaddP fold x l) :=
  Ok.bind (Ok.dmdupdate hF hf hm x hR hW) (fun _ => Ok.bind (Ok.dmddeposit hf x hR hW) (fun _ => Ok.dmrenorm hf hR hW))

theorem Ok.dmnegate {l : Loc} (hR : ∀ a, l.In fold a → R a) (hW : ∀ a, l.In fold a → W a) : Ok F W R s (F.dmnegateP fold l) := by
  have h0 : l.In fold l.pri := by rw [← Loc.P0]; exact l.inP (by omega)
  unfold dmnegateP
  simp only [bind_eq]
  refine Ok.bind (Ok.rd (hR _ h0)) (fun y0 => Ok.ite (fun _ => Ok.ret ()) (fun _ => Ok.dmbins hF (Ok.loop (fun i hi => ?_))))
  have hi := List.mem_range.1 hi
  exact Ok.bind (Ok.bin (Or.inr (full_of hm (dmindex_le_max hF _) hi))) (fun _ => Ok.bind (Ok.rd (hR _ (l.inP hi))) (fun _ => Ok.bind (Ok.wr _ (hW _ (l.inP hi))) (fun _ =>
    Ok.bind (Ok.rd (hR _ (l.inC hi))) (fun _ => Ok.wr _ (hW _ (l.inC hi))))))

theorem Ok.dmdmadd {x y : Loc} (hRx : ∀ a, x.In fold a → R a) (hR : ∀ a, y.In fold a → R a) (hW : ∀ a, y.In fold a → W a) : Ok F W R s (F.dmdmaddP fold x y) := by
  have hx0 : x.In fold x.pri := by rw [← Loc.P0]; exact x.inP (by omega)
  have h0 : y.In fold y.pri := by rw [← Loc.P0]; exact y.inP (by omega)
  unfold dmdmaddP
  simp only [bind_eq]
  refine Ok.bind (Ok.rd (hRx _ hx0)) (fun x0 => Ok.ite (fun _ => Ok.ret ()) (fun _ => Ok.bind (Ok.rd (hR _ h0)) (fun y0 => ?_)))
  refine Ok.ite (fun _ => Ok.dmdmset hRx hW) (fun _ => Ok.ite (fun _ => Ok.wr _ (hW _ h0)) (fun _ => Ok.ite (fun _ => Ok.dmbins hF ?_) (fun _ => Ok.dmbins hF ?_)))
  · refine Ok.bind (Ok.loop (fun i hi => ?_)) (fun _ => Ok.bind (Ok.loop (fun i hi => ?_)) (fun _ => Ok.dmrenorm hf hR hW))
    · have hi := mem_downTo hi
      exact Ok.bind (Ok.rd (hRx _ (x.inP (by omega)))) (fun _ => Ok.bind (Ok.rd (hR _ (y.inP (by omega)))) (fun _ => Ok.bind (Ok.bin (Or.inr (full_of hm (dmindex_le_max hF _) (by omega)))) (fun _ =>
        Ok.bind (Ok.wr _ (hW _ (y.inP (by omega)))) (fun _ => Ok.bind (Ok.rd (hRx _ (x.inC (by omega)))) (fun _ => Ok.bind (Ok.rd (hR _ (y.inC (by omega)))) (fun _ => Ok.wr _ (hW _ (y.inC (by omega)))))))))
    · have hi := List.mem_range.1 hi
      exact Ok.bind (Ok.rd (hRx _ (x.inP (by omega)))) (fun _ => Ok.bind (Ok.wr _ (hW _ (y.inP (by omega)))) (fun _ => Ok.bind (Ok.rd (hRx _ (x.inC (by omega)))) (fun _ => Ok.wr _ (hW _ (y.inC (by omega))))))
  · refine Ok.bind (Ok.loop (fun i hi => ?_)) (fun _ => Ok.dmrenorm hf hR hW)
    have hi := List.mem_range'_1.1 hi
    exact Ok.bind (Ok.rd (hR _ (y.inP (by omega)))) (fun _ => Ok.bind (Ok.rd (hRx _ (x.inP (by omega)))) (fun _ => Ok.bind (Ok.bin (Or.inr (full_of hm (dmindex_le_max hF _) (by omega)))) (fun _ =>
      Ok.bind (Ok.wr _ (hW _ (y.inP (by omega)))) (fun _ => Ok.bind (Ok.rd (hR _ (y.inC (by omega)))) (fun _ => Ok.bind (Ok.rd (hRx _ (x.inC (by omega)))) (fun _ => Ok.wr _ (hW _ (y.inC (by omega)))))))))

omit hF in
theorem Ok.convLast (G : Fmt) {l : Loc} (hR : ∀ a, l.In fold a → R a) {k : Nat} (hk : k ≤ F.maxIndex) (hs : ∀ i, Full F i → s i) : Ok F W R s (G.convLastP fold l k) :=
  Ok.bind (Ok.rd (hR _ (l.inP (by omega)))) (fun _ => Ok.bind (Ok.bin (hs _ (full_of hm hk (by omega)))) (fun _ => Ok.ret _))

omit hF in
theorem Ok.convRest {l : Loc} (hR : ∀ a, l.In fold a → R a) {k : Nat} (hk : k ≤ F.maxIndex) (hs : ∀ i, Full F i → s i) (i : Nat) (Y : Flt) : Ok F W R s (F.convRestP fold l k i Y) := by
  have h1 : ∀ Y i, i < fold → Ok F W R s (F.convStepSP l k Y i) := fun Y i hi =>
    Ok.bind (Ok.rd (hR _ (l.inC hi))) (fun _ => Ok.bind (Ok.bin (hs _ (full_of hm hk hi))) (fun _ => Ok.bind (Ok.rd (hR _ (l.inP (by omega)))) (fun _ => Ok.bind (Ok.bin (hs _ (full_of hm hk (by omega)))) (fun _ => Ok.ret _))))
  have h2 : ∀ Y i, i < fold → Ok F W R s (F.convStepP l k Y i) := fun Y i hi =>
    Ok.bind (Ok.rd (hR _ (l.inC hi))) (fun _ => Ok.bind (Ok.bin (hs _ (full_of hm hk hi))) (fun _ => Ok.bind (Ok.rd (hR _ (l.inP (by omega)))) (fun _ => Ok.bind (Ok.bin (hs _ (full_of hm hk (by omega)))) (fun _ => Ok.ret _))))
  refine Ok.bind (Ok.loopV (fun Y i hi => h1 Y i (by have := List.mem_range'_1.1 hi; omega)) Y) (fun Y => ?_)
  refine Ok.ite (fun _ => Ok.bind (Ok.convLast hf hm F hR hk hs) (fun _ => Ok.ret _)) (fun _ => Ok.ite (fun _ => Ok.ret _) (fun _ => ?_))
  exact Ok.bind (Ok.loopV (fun Y i hi => h2 Y i (by have := List.mem_range'_1.1 hi; omega)) _) (fun Y => Ok.bind (Ok.convLast hf hm F hR hk hs) (fun _ => Ok.ret _))

theorem Ok.ddmconv {l : Loc} (hR : ∀ a, l.In fold a → R a) : Ok F W R s (F.ddmconvP fold l) := by
  have h0 : l.In fold l.pri := by rw [← Loc.P0]; exact l.inP (by omega)
  unfold ddmconvP
  simp only [bind_eq]
  refine Ok.bind (Ok.rd (hR _ h0)) (fun x0 => Ok.ite (fun _ => Ok.ret _) (fun _ => Ok.ite (fun _ => Ok.ret _) (fun _ => Ok.dmbins hF ?_)))
  have hs : ∀ i, Full F i → (s i ∨ Full F i) := fun _ h => Or.inr h
  have hb : ∀ {k}, k ≤ F.maxIndex → Ok F W R (fun i => s i ∨ Full F i) (Prog.bin k) := fun {k} hk => Ok.bin (Or.inr (full_of (i := 0) hm hk (by omega)))
  have hd := dmindex_le_max hF x0
  refine Ok.ite (fun _ => Ok.ite (fun _ => ?_) (fun _ => ?_)) (fun _ => ?_)
  · exact Ok.bind (Ok.rd (hR _ (l.inC (by omega)))) (fun _ => Ok.bind (hb (by omega)) (fun _ => Ok.bind (Ok.rd (hR _ (l.inC (by omega)))) (fun _ => Ok.bind (Ok.bin (Or.inr (by have := full_of (F := F) (k := 0) (i := 1) hm (by omega) (by omega); simpa using this))) (fun _ =>
      Ok.convRest hf hm hR (by omega) hs _ _))))
  · exact Ok.bind (Ok.rd (hR _ (l.inC (by omega)))) (fun _ => Ok.bind (hb hd) (fun _ => Ok.convRest hf hm hR hd hs _ _))
  · refine Ok.bind (Ok.rd (hR _ (l.inC (by omega)))) (fun _ => Ok.bind (hb hd) (fun _ => Ok.bind (Ok.loopV (fun Y i hi => ?_) _) (fun _ => Ok.bind (Ok.convLast hf hm F hR hd hs) (fun _ => Ok.ret _))))
    have hi := List.mem_range'_1.1 hi
    exact Ok.bind (Ok.rd (hR _ (l.inC (by omega)))) (fun _ => Ok.bind (Ok.bin (hs _ (full_of hm hd (by omega)))) (fun _ => Ok.bind (Ok.rd (hR _ (l.inP (by omega)))) (fun _ => Ok.bind (Ok.bin (hs _ (full_of hm hd (by omega)))) (fun _ => Ok.ret _))))

omit hF hm in
theorem Ok.ssmconv (hm : fold ≤ f32.maxFold) {l : Loc} (hR : ∀ a, l.In fold a → R a) : Ok f32 W R s (ssmconvP fold l) := by
  have h0 : l.In fold l.pri := by rw [← Loc.P0]; exact l.inP (by omega)
  have hs : ∀ i, Full f32 i → (s i ∨ Full f32 i) := fun _ h => Or.inr h
  have hb : ∀ {k}, k ≤ f32.maxIndex → Ok f32 W R (fun i => s i ∨ Full f32 i) (Prog.bin k) := fun {k} hk => Ok.bin (Or.inr (full_of (i := 0) hm hk (by omega)))
  have rest : ∀ k, k ≤ f32.maxIndex → ∀ i Y, Ok f32 W R (fun i => s i ∨ Full f32 i) (sconvRestP fold l k i Y) := fun k hk i Y => by
    refine Ok.bind (Ok.loopV (fun Y i hi => ?_) _) (fun _ => Ok.bind (Ok.convLast hf hm f32 hR hk hs) (fun _ => Ok.ret _))
    have hi := List.mem_range'_1.1 hi
    exact Ok.bind (Ok.rd (hR _ (l.inC (by omega)))) (fun _ => Ok.bind (Ok.bin (hs _ (full_of hm hk (by omega)))) (fun _ => Ok.bind (Ok.rd (hR _ (l.inP (by omega)))) (fun _ => Ok.bind (Ok.bin (hs _ (full_of hm hk (by omega)))) (fun _ => Ok.ret _))))
  unfold ssmconvP
  simp only [bind_eq]
  refine Ok.bind (Ok.rd (hR _ h0)) (fun x0 => Ok.ite (fun _ => Ok.ret _) (fun _ => Ok.ite (fun _ => Ok.ret _) (fun _ => Ok.dmbins (Or.inr rfl) ?_)))
  have hd := dmindex_le_max (F := f32) (Or.inr rfl) x0
  refine Ok.ite (fun _ => ?_) (fun _ => ?_)
  · exact Ok.bind (Ok.rd (hR _ (l.inC (by omega)))) (fun _ => Ok.bind (hb (by omega)) (fun _ => Ok.bind (Ok.rd (hR _ (l.inC (by omega)))) (fun _ => Ok.bind (Ok.bin (Or.inr (by have := full_of (F := f32) (k := 0) (i := 1) hm (by omega) (by omega); simpa using this))) (fun _ =>
      rest _ (by omega) _ _))))
  · exact Ok.bind (Ok.rd (hR _ (l.inC (by omega)))) (fun _ => Ok.bind (hb hd) (fun _ => rest _ hd _ _))

theorem Ok.convert {l : Loc} (hR : ∀ a, l.In fold a → R a) : Ok F W R s (convertP F fold l) := by
  unfold convertP
  by_cases h : F = f32
  · subst h; simp only [if_true]; exact Ok.ssmconv hf hm hR
  · simp only [if_neg h]; exact Ok.ddmconv hF hf hm hR

end Repro
