import Verif.GenBody
/-!
# The statements before and behind the loop: `propagate_into`, the factors, `consolidate_into`
-/

namespace Repro
open Fmt
variable {F : Fmt}

theorem accv_rm (G : Gen) (expand : Bool) (j : Nat) : G.accv expand j = (List.range G.maxRW).map (accVar expand j) := by
  unfold Gen.accv Gen.sv Gen.bufv accVar
  cases expand <;> rfl

theorem base_even {G : Gen} (hc : G.cplx = true) (hs : G.T.simd = true) : G.base = 2 * G.T.ts := by
  unfold Gen.base Gen.pw; rw [hs, hc]; simp; omega

theorem y_not_acc (expand : Bool) (k l j r : Nat) : Var.y k l ≠ accVar expand j r := by unfold accVar; cases expand <;> simp

theorem cons_not_acc (expand : Bool) (j r : Nat) : Var.cons ≠ accVar expand j r := by unfold accVar; cases expand <;> simp

/-- `propagate_into`. -/
theorem Gen.propagate_spec {G : Gen} (M : Nat → Int → Flt) (expand : Bool) (j : Nat) (σ : Regs) :
    (∀ r, r < G.maxRW → ∀ t, t < G.base → F.run M (G.propagate j (G.accv expand j)) σ (accVar expand j r) t = σ (.y ((r * G.base + t) % G.pw) j) 0)
      ∧ (∀ v, (∀ r, v ≠ accVar expand j r) → F.run M (G.propagate j (G.accv expand j)) σ v = σ v) := by
  rw [accv_rm]
  unfold Gen.propagate
  have hinj : ∀ (n : Nat) (i i' : Nat), i < i' → i' < n → accVar expand j i ≠ accVar expand j i' := by
    intro n i i' h _ he; have := (accVar_inj.mp he).2; omega
  by_cases hs : G.T.simd = true
  · rw [if_pos hs, List.map_map]
    have hv : ∀ v ∈ (G.bcast j).vars, ∃ k, v = .y k j := by
      unfold Gen.bcast; intro v hv
      cases hc : G.cplx <;> simp [hc, Ex.vars] at hv
      · exact ⟨_, hv⟩
      · rcases hv with h | h <;> exact ⟨_, h⟩
    have ⟨h1, h2⟩ := run_rm (F := F) M σ (accVar expand j) (fun _ => G.bcast j) G.maxRW (hinj _)
      (by intro i i' _ _ he; obtain ⟨k, hk⟩ := hv _ he; exact y_not_acc _ _ _ _ _ hk.symm)
    refine ⟨?_, fun v hv => h2 v (fun i _ => hv i)⟩
    intro r hr t ht
    show F.run M ((List.range G.maxRW).map (fun i => (accVar expand j i, G.bcast j))) σ _ t = _
    rw [h1 r hr]
    unfold Gen.bcast
    rcases G.pw_cases with ⟨hc, hpw⟩ | ⟨hc, hpw⟩
    · rw [hc, hpw, Nat.mod_one]; rfl
    · rw [hc, hpw]
      have e1 : (r * G.base + t) % 2 = t % 2 := by
        have : r * G.base = 2 * (r * G.T.ts) := by rw [base_even hc hs]; ring
        omega
      rw [e1]
      show (if t % 2 = 0 then σ (.y 0 j) 0 else σ (.y 1 j) 0) = _
      rcases Nat.mod_two_eq_zero_or_one t with h | h
      · rw [if_pos h, h]
      · rw [if_neg (by omega), h]
  · rw [if_neg hs]
    have hb : G.base = 1 := by unfold Gen.base; rw [if_neg hs]
    rcases G.pw_cases with ⟨hc, hpw⟩ | ⟨hc, hpw⟩
    · rw [if_neg (by simp [hc]), List.map_map]
      have ⟨h1, h2⟩ := run_rm (F := F) M σ (accVar expand j) (fun _ => .lane (.y 0 j) 0) G.maxRW (hinj _)
        (by intro i i' _ _ he; simp [Ex.vars] at he; exact y_not_acc _ _ _ _ _ he.symm)
      refine ⟨?_, fun v hv => h2 v (fun i _ => hv i)⟩
      intro r hr t ht
      show F.run M ((List.range G.maxRW).map (fun i => (accVar expand j i, Ex.lane (.y 0 j) 0))) σ _ t = _
      rw [h1 r hr, hpw, Nat.mod_one]; rfl
    · rw [if_pos hc, drop_rm, stride2_rm, stride2_rm, List.map_map, List.map_map, run_append]
      have ⟨h1, h2⟩ := run_rm (F := F) M σ (fun i => accVar expand j (2 * i)) (fun _ => .lane (.y 0 j) 0) ((G.maxRW + 1) / 2)
        (by intro i i' _ _ he; have := (accVar_inj.mp he).2; omega)
        (by intro i i' _ _ he; simp [Ex.vars] at he; exact y_not_acc _ _ _ _ _ he.symm)
      rw [show ((fun v => (v, Ex.lane (.y 0 j) 0)) ∘ fun i => accVar expand j (2 * i)) = (fun i => (accVar expand j (2 * i), Ex.lane (.y 0 j) 0)) from rfl,
        show ((fun v => (v, Ex.lane (.y 1 j) 0)) ∘ fun i => accVar expand j (1 + 2 * i)) = (fun i => (accVar expand j (1 + 2 * i), Ex.lane (.y 1 j) 0)) from rfl]
      generalize F.run M ((List.range ((G.maxRW + 1) / 2)).map (fun i => (accVar expand j (2 * i), Ex.lane (.y 0 j) 0))) σ = τ at *
      have ⟨h3, h4⟩ := run_rm (F := F) M τ (fun i => accVar expand j (1 + 2 * i)) (fun _ => .lane (.y 1 j) 0) ((G.maxRW - 1 + 1) / 2)
        (by intro i i' _ _ he; have := (accVar_inj.mp he).2; omega)
        (by intro i i' _ _ he; simp [Ex.vars] at he; exact y_not_acc _ _ _ _ _ he.symm)
      refine ⟨?_, fun v hv => by rw [h4 v (fun i _ => hv _), h2 v (fun i _ => hv _)]⟩
      intro r hr t ht
      rw [hb, hpw, Nat.mul_one]
      obtain rfl : t = 0 := by omega
      show _ = σ (.y (r % 2) j) 0
      rcases Nat.mod_two_eq_zero_or_one r with h | h
      · obtain ⟨i, rfl⟩ : ∃ i, r = 2 * i := ⟨r / 2, by omega⟩
        rw [h4 _ (by intro i' _ he; have := (accVar_inj.mp he).2; omega), h1 i (by omega), h]; rfl
      · obtain ⟨i, rfl⟩ : ∃ i, r = 1 + 2 * i := ⟨r / 2, by omega⟩
        rw [h3 i (by omega), h]
        show τ (.y 1 j) 0 = _
        rw [h2 _ (fun i _ => y_not_acc _ _ _ _ _)]

theorem Gen.propagates_spec {G : Gen} (M : Nat → Int → Flt) (expand : Bool) (σ : Regs) : ∀ fold,
    (∀ j, j < fold → ∀ r, r < G.maxRW → ∀ t, t < G.base →
        F.run M ((List.range fold).flatMap (fun j => G.propagate j (G.accv expand j))) σ (accVar expand j r) t = σ (.y ((r * G.base + t) % G.pw) j) 0)
      ∧ (∀ k j, F.run M ((List.range fold).flatMap (fun j => G.propagate j (G.accv expand j))) σ (.y k j) = σ (.y k j)) := by
  intro fold
  induction fold with
  | zero => exact ⟨fun j hj => absurd hj (Nat.not_lt_zero j), fun _ _ => rfl⟩
  | succ fold ih =>
    have hrun : F.run M ((List.range (fold + 1)).flatMap (fun j => G.propagate j (G.accv expand j))) σ
        = F.run M (G.propagate fold (G.accv expand fold)) (F.run M ((List.range fold).flatMap (fun j => G.propagate j (G.accv expand j))) σ) := by
      rw [List.range_succ, List.flatMap_append, run_append]; simp
    rw [hrun]
    generalize F.run M ((List.range fold).flatMap (fun j => G.propagate j (G.accv expand j))) σ = τ at *
    obtain ⟨i1, i2⟩ := ih
    have ⟨h1, h2⟩ := G.propagate_spec (F := F) M expand fold τ
    refine ⟨?_, fun k j => by rw [h2 _ (fun r => y_not_acc _ _ _ _ _), i2]⟩
    intro j hj r hr t ht
    by_cases hjf : j = fold
    · subst hjf; rw [h1 r hr t ht, i2]
    · rw [h2 _ (fun r' he => hjf (accVar_inj.mp he).1), i1 j (by omega) r hr t ht]

/-- Assigning factors. -/
theorem fac_spec (M : Nat → Int → Flt) (σ : Regs) (d : Nat → Var) (hd : ∀ i i', d i = d i' → i = i') (s : Nat) (l : List Ex)
    (hl : ∀ e ∈ l, e.vars = []) (hl0 : 0 < l.length) :
    (∀ i, i < s → F.run M (setEqual ((List.range s).map d) (cycleTo l ((List.range s).map d).length)) σ (d i)
        = F.evalEx M σ (l.getD (i % l.length) default))
      ∧ (∀ v, (∀ i, v ≠ d i) → F.run M (setEqual ((List.range s).map d) (cycleTo l ((List.range s).map d).length)) σ v = σ v) := by
  unfold cycleTo
  rw [setEqual_rm, List.length_map, List.length_range, Nat.min_self]
  have ⟨h1, h2⟩ := run_rm (F := F) M σ d (fun i => l.getD (i % l.length) default) s
    (by intro i i' h _ he; have := hd _ _ he; omega) (by
      intro i i' _ _ he
      have hm : i' % l.length < l.length := Nat.mod_lt _ hl0
      rw [List.getD_eq_getElem?_getD, List.getElem?_eq_getElem hm, Option.getD_some, hl _ (List.getElem_mem hm)] at he
      simp at he)
  exact ⟨h1, fun v hv => h2 v (fun i _ => hv i)⟩

/-- The compression factors of the part `k`. -/
def facC (F : Fmt) (i0 i1 : Bool) (k : Nat) : Flt := if (if k = 0 then i0 else i1) then F.compression else F.one
def facH (F : Fmt) (i0 i1 : Bool) (k : Nat) : Flt := if (if k = 0 then i0 else i1) then F.halfExpansion else F.one
def facM (F : Fmt) (i0 i1 : Bool) (k : Nat) : Flt := if (if k = 0 then i0 else i1) then F.halfExpansion else zero

theorem suf_pos' (G : Gen) : 0 < G.suf := by
  unfold Gen.suf; split
  · omega
  · exact G.pw_pos

/-- A factor that differs between the parts. -/
theorem Gen.setRI_val {G : Gen} (hc : G.cplx = true) (M : Nat → Int → Flt) (σ : Regs) (a b : Flt) (r t : Nat) (ht : t < G.base) :
    F.evalEx M σ ((G.setRI a b).getD (r % G.suf % (G.setRI a b).length) default) t = if (r * G.base + t) % G.pw = 0 then a else b := by
  have hpw : G.pw = 2 := by unfold Gen.pw; rw [hc]; rfl
  unfold Gen.setRI
  by_cases hs : G.T.simd = true
  · have hsuf : G.suf = 1 := by unfold Gen.suf; rw [if_pos hs]
    rw [if_pos hs, hsuf, Nat.mod_one]
    have e1 : (r * G.base + t) % 2 = t % 2 := by
      have : r * G.base = 2 * (r * G.T.ts) := by rw [base_even hc hs]; ring
      omega
    rw [hpw, e1]
    rfl
  · have hb : G.base = 1 := by unfold Gen.base; rw [if_neg hs]
    have hsuf : G.suf = 2 := by unfold Gen.suf; rw [if_neg hs, hpw]
    rw [if_neg hs, hsuf, hb, hpw, Nat.mul_one]
    obtain rfl : t = 0 := by omega
    show F.evalEx M σ (([Ex.cst a, Ex.cst b] : List Ex).getD (r % 2 % 2) default) 0 = if r % 2 = 0 then a else b
    rcases Nat.mod_two_eq_zero_or_one r with h | h
    · rw [h]; rfl
    · rw [h]; rfl

theorem setRI_vars (G : Gen) (a b : Flt) : (∀ e ∈ G.setRI a b, e.vars = []) ∧ 0 < (G.setRI a b).length := by
  unfold Gen.setRI
  split <;> simp [Ex.vars]

theorem cst_vars (a : Flt) : (∀ e ∈ [Ex.cst a], e.vars = []) ∧ 0 < [Ex.cst a].length := by simp [Ex.vars]

/-- Three lists of factors assigned. -/
theorem Gen.facs_spec {G : Gen} (M : Nat → Int → Flt) (σ : Regs) (lc lh lm : List Ex)
    (hc : (∀ e ∈ lc, e.vars = []) ∧ 0 < lc.length) (hh : (∀ e ∈ lh, e.vars = []) ∧ 0 < lh.length) (hm : (∀ e ∈ lm, e.vars = []) ∧ 0 < lm.length)
    (τ : Regs) (hτ : τ = F.run M (setEqual G.compv (cycleTo lc G.compv.length) ++ setEqual G.expnv (cycleTo lh G.expnv.length)
      ++ setEqual G.maskv (cycleTo lm G.maskv.length)) σ) :
    (∀ r t, τ (.comp (r % G.suf)) t = F.evalEx M σ (lc.getD (r % G.suf % lc.length) default) t)
      ∧ (∀ r t, τ (.expn (r % G.suf)) t = F.evalEx M σ (lh.getD (r % G.suf % lh.length) default) t)
      ∧ (∀ r t, τ (.mask (r % G.suf)) t = F.evalEx M σ (lm.getD (r % G.suf % lm.length) default) t)
      ∧ (∀ v, (∀ i, v ≠ .comp i) → (∀ i, v ≠ .expn i) → (∀ i, v ≠ .mask i) → τ v = σ v) := by
  have hcl : ∀ (l : List Ex), ((∀ e ∈ l, e.vars = []) ∧ 0 < l.length) → ∀ i (ρ : Regs),
      F.evalEx M ρ (l.getD (i % l.length) default) = F.evalEx M σ (l.getD (i % l.length) default) := by
    intro l h i ρ
    apply evalEx_congr
    intro v hv
    have hm : i % l.length < l.length := Nat.mod_lt _ h.2
    rw [List.getD_eq_getElem?_getD, List.getElem?_eq_getElem hm, Option.getD_some, h.1 _ (List.getElem_mem hm)] at hv
    simp at hv
  rw [run_append, run_append] at hτ
  unfold Gen.compv Gen.expnv Gen.maskv at hτ
  have ⟨h1, h2⟩ := fac_spec (F := F) M σ .comp (by intro i i' h; exact Var.comp.inj h) G.suf lc hc.1 hc.2
  generalize F.run M (setEqual ((List.range G.suf).map Var.comp) (cycleTo lc ((List.range G.suf).map Var.comp).length)) σ = σ1 at *
  have ⟨h3, h4⟩ := fac_spec (F := F) M σ1 .expn (by intro i i' h; exact Var.expn.inj h) G.suf lh hh.1 hh.2
  generalize F.run M (setEqual ((List.range G.suf).map Var.expn) (cycleTo lh ((List.range G.suf).map Var.expn).length)) σ1 = σ2 at *
  have ⟨h5, h6⟩ := fac_spec (F := F) M σ2 .mask (by intro i i' h; exact Var.mask.inj h) G.suf lm hm.1 hm.2
  rw [← hτ] at h5 h6
  have hs : ∀ r, r % G.suf < G.suf := fun r => Nat.mod_lt _ (suf_pos' G)
  refine ⟨?_, ?_, ?_, ?_⟩
  · intro r t; rw [h6 _ (by simp), h4 _ (by simp), h1 _ (hs r)]
  · intro r t; rw [h6 _ (by simp), h3 _ (hs r), hcl _ hh]
  · intro r t; rw [h5 _ (hs r), hcl _ hm]
  · intro v a b c; rw [h6 v c, h4 v b, h2 v a]

/-- The factors in front of `process0`. -/
theorem Gen.factors_spec {G : Gen} (M : Nat → Int → Flt) (σ : Regs) (i0 i1 : Bool) (hi : i0 = true ∨ i1 = true) (hr : G.cplx = false → i1 = false) :
    (∀ r t, t < G.base → F.run M (G.factors F i0 i1) σ (.comp (r % G.suf)) t = facC F i0 i1 ((r * G.base + t) % G.pw))
      ∧ (∀ r t, t < G.base → F.run M (G.factors F i0 i1) σ (.expn (r % G.suf)) t = facH F i0 i1 ((r * G.base + t) % G.pw))
      ∧ (G.cplx = true → ∀ r t, t < G.base → F.run M (G.factors F i0 i1) σ (.mask (r % G.suf)) t = facM F i0 i1 ((r * G.base + t) % G.pw))
      ∧ (∀ v, (∀ i, v ≠ .comp i) → (∀ i, v ≠ .expn i) → (∀ i, v ≠ .mask i) → F.run M (G.factors F i0 i1) σ v = σ v) := by
  have hcst : ∀ (a : Flt) (i t : Nat), F.evalEx M σ (([Ex.cst a] : List Ex).getD (i % ([Ex.cst a] : List Ex).length) default) t = a := by
    intro a i t
    show F.evalEx M σ (([Ex.cst a] : List Ex).getD (i % 1) default) t = a
    rw [Nat.mod_one]; rfl
  unfold Gen.factors
  dsimp only
  rcases G.pw_cases with ⟨hc, hpw⟩ | ⟨hc, hpw⟩
  · rw [if_neg (by simp [hc])]
    have h1 := hr hc
    subst h1
    have h0 : i0 = true := by simpa using hi
    subst h0
    rw [run_append]
    unfold Gen.compv Gen.expnv
    have ⟨h1, h2⟩ := fac_spec (F := F) M σ .comp (by intro i i' h; exact Var.comp.inj h) G.suf [.cst F.compression] (cst_vars _).1 (cst_vars _).2
    generalize F.run M (setEqual ((List.range G.suf).map Var.comp) (cycleTo [.cst F.compression] ((List.range G.suf).map Var.comp).length)) σ = σ1 at *
    have ⟨h3, h4⟩ := fac_spec (F := F) M σ1 .expn (by intro i i' h; exact Var.expn.inj h) G.suf [.cst F.halfExpansion] (cst_vars _).1 (cst_vars _).2
    generalize F.run M (setEqual ((List.range G.suf).map Var.expn) (cycleTo [.cst F.halfExpansion] ((List.range G.suf).map Var.expn).length)) σ1 = σ2 at *
    have hs : ∀ r, r % G.suf < G.suf := fun r => Nat.mod_lt _ (suf_pos' G)
    refine ⟨?_, ?_, ?_, ?_⟩
    · intro r t _
      rw [h4 _ (by simp), h1 _ (hs r), hcst, hpw, Nat.mod_one]; rfl
    · intro r t _
      rw [h3 _ (hs r), hpw, Nat.mod_one]
      show F.evalEx M σ1 (([Ex.cst F.halfExpansion] : List Ex).getD (r % G.suf % 1) default) t = _
      rw [Nat.mod_one]; rfl
    · intro h; rw [hc] at h; cases h
    · intro v a b _; rw [h4 v b, h2 v a]
  · rw [if_pos hc]
    have hk : ∀ B, B % G.pw = 0 ∨ B % G.pw = 1 := by intro B; rw [hpw]; omega
    cases i0 with
    | true =>
      cases i1 with
      | true =>
        simp only [↓reduceIte]
        obtain ⟨h1, h2, h3, h4⟩ := G.facs_spec (F := F) M σ [.cst F.compression] [.cst F.halfExpansion] [.cst F.halfExpansion] (cst_vars _) (cst_vars _) (cst_vars _) _ rfl
        refine ⟨?_, ?_, ?_, h4⟩
        · intro r t _; rw [h1, hcst]; simp [facC]
        · intro r t _; rw [h2, hcst]; simp [facH]
        · intro _ r t _; rw [h3, hcst]; simp [facM]
      | false =>
        simp only [↓reduceIte, Bool.false_eq_true]
        obtain ⟨h1, h2, h3, h4⟩ := G.facs_spec (F := F) M σ (G.setRI F.compression F.one) (G.setRI F.halfExpansion F.one) (G.setRI F.halfExpansion zero)
          (setRI_vars _ _ _) (setRI_vars _ _ _) (setRI_vars _ _ _) _ rfl
        refine ⟨?_, ?_, ?_, h4⟩
        · intro r t ht; rw [h1, G.setRI_val hc M σ _ _ r t ht]
          rcases hk (r * G.base + t) with h | h <;> simp [facC, h]
        · intro r t ht; rw [h2, G.setRI_val hc M σ _ _ r t ht]
          rcases hk (r * G.base + t) with h | h <;> simp [facH, h]
        · intro _ r t ht; rw [h3, G.setRI_val hc M σ _ _ r t ht]
          rcases hk (r * G.base + t) with h | h <;> simp [facM, h]
    | false =>
      have h1 : i1 = true := by simpa using hi
      subst h1
      simp only [↓reduceIte, Bool.false_eq_true]
      obtain ⟨h1, h2, h3, h4⟩ := G.facs_spec (F := F) M σ (G.setRI F.one F.compression) (G.setRI F.one F.halfExpansion) (G.setRI zero F.halfExpansion)
        (setRI_vars _ _ _) (setRI_vars _ _ _) (setRI_vars _ _ _) _ rfl
      refine ⟨?_, ?_, ?_, h4⟩
      · intro r t ht; rw [h1, G.setRI_val hc M σ _ _ r t ht]
        rcases hk (r * G.base + t) with h | h <;> simp [facC, h]
      · intro r t ht; rw [h2, G.setRI_val hc M σ _ _ r t ht]
        rcases hk (r * G.base + t) with h | h <;> simp [facH, h]
      · intro _ r t ht; rw [h3, G.setRI_val hc M σ _ _ r t ht]
        rcases hk (r * G.base + t) with h | h <;> simp [facM, h]

/-- One deposit with the factors of a part is `zstep` (complex) or `kstep` (real). -/
theorem gstep_cplx (i0 i1 : Bool) {k : Nat} (c h m x : Flt) (L : List Flt)
    (hf : i0 = true ∨ i1 = true → c = facC F i0 i1 k ∧ h = facH F i0 i1 k ∧ m = facM F i0 i1 k) :
    gstep F true (i0 || i1) c h m x L = F.zstep (zmode (if k = 0 then i0 else i1) (if k = 0 then i1 else i0)) x L := by
  by_cases hi : i0 = true ∨ i1 = true
  · obtain ⟨rfl, rfl, rfl⟩ := hf hi
    have e : (i0 || i1) = true := by simpa using hi
    rw [e]
    unfold facC facH facM zmode
    cases L with
    | nil =>
      by_cases hk : k = 0 <;> cases i0 <;> cases i1 <;> simp_all [gstep, zstep]
    | cons p L =>
      by_cases hk : k = 0 <;> cases i0 <;> cases i1 <;> simp_all [gstep, zstep]
  · have h0 : i0 = false := by cases i0 <;> simp_all
    have h1 : i1 = false := by cases i1 <;> simp_all
    subst h0; subst h1
    simp only [Bool.or_false, ite_self, zmode, Bool.false_eq_true, ↓reduceIte, zstep]
    cases L <;> simp [gstep, kloop]

theorem gstep_real (i0 : Bool) (c h m x : Flt) (L : List Flt)
    (hf : i0 = true → c = F.compression ∧ h = F.halfExpansion) :
    gstep F false i0 c h m x L = F.kstep i0 x L := by
  cases i0 with
  | true =>
    obtain ⟨rfl, rfl⟩ := hf rfl
    cases L <;> simp [gstep, kstep]
  | false =>
    cases L <;> simp [gstep, kstep, kloop]

/-- `s0 = s0 + (v - cons_tmp)` for all `v` of a list. -/
theorem accum_spec (M : Nat → Int → Flt) (s0 : Var) (hs : s0 ≠ .cons) : ∀ (L : List Var) (σ : Regs), (∀ v ∈ L, v ≠ s0) →
    (∀ t, F.run M (L.map (Gen.accumInto s0)) σ s0 t = L.foldl (fun a v => F.add a (F.sub (σ v t) (σ .cons t))) (σ s0 t))
      ∧ (∀ v, v ≠ s0 → F.run M (L.map (Gen.accumInto s0)) σ v = σ v) := by
  intro L
  induction L with
  | nil => intro σ _; exact ⟨fun _ => rfl, fun _ _ => rfl⟩
  | cons a L ih =>
    intro σ hL
    rw [List.map_cons, run_cons]
    have ha := hL a (List.mem_cons_self)
    have ⟨h1, h2⟩ := ih (F.exec M σ (Gen.accumInto s0 a)) (fun v hv => hL v (List.mem_cons_of_mem _ hv))
    have he : ∀ v, v ≠ s0 → F.exec M σ (Gen.accumInto s0 a) v = σ v := fun v hv => if_neg hv
    refine ⟨?_, fun v hv => by rw [h2 v hv, he v hv]⟩
    intro t
    rw [h1 t, List.foldl_cons]
    have e0 : F.exec M σ (Gen.accumInto s0 a) s0 t = F.add (σ s0 t) (F.sub (σ a t) (σ .cons t)) := by
      show (if s0 = s0 then _ else _ : Nat → Flt) t = _
      rw [if_pos rfl]; rfl
    rw [e0, he _ (fun h => hs h.symm)]
    refine List.foldl_ext _ _ _ (fun C v hv => ?_)
    rw [he v (hL v (List.mem_cons_of_mem _ hv))]

end Repro
