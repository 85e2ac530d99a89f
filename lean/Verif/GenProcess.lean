import Verif.GenLemmas
/-!
# What the generated deposit statements do to the variables
-/

namespace Repro

/-- The accumulator variable of level `j`, register `r`. -/
def accVar (expand : Bool) (j r : Nat) : Var := if expand then .s j r else .buf j r

/-- Variables whose contents do not matter between the groups. -/
def Var.scratch (expand : Bool) : Var → Bool
  | .q _ => true
  | .s 0 _ => !expand
  | _ => false

theorem accVar_inj {expand : Bool} {j r j' r' : Nat} : accVar expand j r = accVar expand j' r' ↔ j = j' ∧ r = r' := by
  unfold accVar; cases expand <;> simp

namespace Fmt
variable {F : Fmt}

/-- What a level must do: deposit the `w` load registers from `i * w` on into the accumulators of level `j`. -/
structure LevelSpec (F : Fmt) (expand : Bool) (m w i j : Nat) (σ τ : Regs) : Prop where
  acc : ∀ r, r < w → ∀ t, τ (accVar expand j r) t = F.add (σ (accVar expand j r) t) (or1 (σ (.x (i * w + r)) t))
  x : ∀ r, r < w → ∀ t, τ (.x (i * w + r)) t
    = F.add (σ (.x (i * w + r)) t) (F.sub (σ (accVar expand j r) t) (τ (accVar expand j r) t))
  frame : ∀ v, v.scratch expand = false → (∀ r, r < w → v ≠ accVar expand j r) → (∀ r, r < m → v ≠ .x (i * w + r)) → τ v = σ v

end Fmt

open Fmt

variable {F : Fmt}

section
variable {G : Gen} {w i : Nat}

theorem Gen.level_spec (M : Nat → Int → Flt) (σ : Regs) (j : Nat) (hw : w ≤ G.maxRW) (hi : i * w + w ≤ G.maxRW * G.T.unroll) :
    LevelSpec F true G.maxRW w i j σ (F.run M (G.level w i j) σ) := by
  have hm1 : min G.maxRW w = w := by omega
  have hm2 : min w G.maxRW = w := by omega
  have hm3 : min (G.maxRW * G.T.unroll - i * w) w = w := by omega
  unfold Gen.level
  rw [Gen.qv, Gen.sv, Gen.xv, take_rm, take_rm, drop_rm, ev_rm, ev_rm, ev_rm, ev_rm, setEqual_rm, addBlp_rm _ _ _ hw hw (by omega),
    vsub_rm, setEqual_rm, vadd_rm, setEqual_rm, hm2, hm1, hm1, hm3, hm3]
  rw [run_append, run_append, run_append]
  have ⟨hA, fA⟩ := run_rm (F := F) M σ (fun r => .q r) (fun r => .var (.s j r)) w (by intro a b h _ he; simp at he; omega)
    (by intro a b h _; simp [Ex.vars])
  generalize F.run M ((List.range w).map (fun r => (Var.q r, Ex.var (.s j r)))) σ = σ1 at *
  have ⟨hB, fB⟩ := run_rm (F := F) M σ1 (fun r => .s j r) (fun r => .add (.var (.s j r)) (.or1 (.var (.x (i * w + r))))) w
    (by intro a b h _ he; simp at he; omega) (by intro a b h _ he; simp [Ex.vars] at he; omega)
  generalize F.run M ((List.range w).map (fun r => (Var.s j r, Ex.add (.var (.s j r)) (.or1 (.var (.x (i * w + r))))))) σ1 = σ2 at *
  have ⟨hC, fC⟩ := run_rm (F := F) M σ2 (fun r => .q r) (fun r => .sub (.var (.q r)) (.var (.s j r))) w
    (by intro a b h _ he; simp at he; omega) (by intro a b h _ he; simp [Ex.vars] at he; omega)
  generalize F.run M ((List.range w).map (fun r => (Var.q r, Ex.sub (.var (.q r)) (.var (.s j r))))) σ2 = σ3 at *
  have ⟨hD, fD⟩ := run_rm (F := F) M σ3 (fun r => .x (i * w + r)) (fun r => .add (.var (.x (i * w + r))) (.var (.q r))) w
    (by intro a b h _ he; simp at he; omega) (by intro a b h _ he; simp [Ex.vars] at he; omega)
  generalize F.run M ((List.range w).map (fun r => (Var.x (i * w + r), Ex.add (.var (.x (i * w + r))) (.var (.q r))))) σ3 = σ4 at *
  have hs : ∀ r, r < w → ∀ t, σ4 (.s j r) t = F.add (σ (.s j r) t) (or1 (σ (.x (i * w + r)) t)) := by
    intro r hr t
    rw [fD _ (by intro k _; simp), fC _ (by intro k _; simp), hB r hr]
    simp only [evalEx]
    rw [fA _ (by intro k _; simp), fA _ (by intro k _; simp)]
  refine ⟨hs, ?_, ?_⟩
  · intro r hr t
    show σ4 (.x (i * w + r)) t = F.add (σ (.x (i * w + r)) t) (F.sub (σ (.s j r) t) (σ4 (.s j r) t))
    have h4 : σ4 (.s j r) = σ2 (.s j r) := by rw [fD _ (by intro k _; simp), fC _ (by intro k _; simp)]
    rw [h4, hD r hr]
    simp only [evalEx]
    rw [fC _ (by intro k _; simp), fB _ (by intro k _; simp), fA _ (by intro k _; simp), hC r hr]
    simp only [evalEx]
    rw [fB (.q r) (by intro k _; simp), hA r hr]
    simp only [evalEx]
  · intro v h1 h2 h3
    have hq : ∀ k, v ≠ .q k := by rintro k rfl; simp [Var.scratch] at h1
    rw [fD v (fun k hk => h3 k (by omega)), fC v (fun k _ => hq k), fB v (fun k hk => h2 k hk), fA v (fun k _ => hq k)]

theorem Gen.levelBuf_spec (M : Nat → Int → Flt) (σ : Regs) (j : Nat) (hw : w ≤ G.maxRW) (hi : i * w + w ≤ G.maxRW * G.T.unroll) :
    LevelSpec F false G.maxRW w i j σ (F.run M (G.levelBuf w i j) σ) := by
  have hm1 : min G.maxRW w = w := by omega
  have hm2 : min w G.maxRW = w := by omega
  have hm3 : min (G.maxRW * G.T.unroll - i * w) w = w := by omega
  unfold Gen.levelBuf
  rw [Gen.qv, Gen.sv, Gen.bufv, Gen.xv, take_rm, take_rm, drop_rm, ev_rm, ev_rm, ev_rm, ev_rm, setEqual_rm, addBlp_rm _ _ _ hw hw (by omega),
    setEqual_rm, vsub_rm, setEqual_rm, vadd_rm, setEqual_rm, hm2, hm1, hm1, hm3, hm3]
  rw [run_append, run_append, run_append, run_append]
  have ⟨hA, fA⟩ := run_rm (F := F) M σ (fun r => .s 0 r) (fun r => .var (.buf j r)) w (by intro a b h _ he; simp at he; omega)
    (by intro a b h _; simp [Ex.vars])
  generalize F.run M ((List.range w).map (fun r => (Var.s 0 r, Ex.var (.buf j r)))) σ = σ1 at *
  have ⟨hB, fB⟩ := run_rm (F := F) M σ1 (fun r => .q r) (fun r => .add (.var (.s 0 r)) (.or1 (.var (.x (i * w + r))))) w
    (by intro a b h _ he; simp at he; omega) (by intro a b h _ he; simp [Ex.vars] at he)
  generalize F.run M ((List.range w).map (fun r => (Var.q r, Ex.add (.var (.s 0 r)) (.or1 (.var (.x (i * w + r))))))) σ1 = σ2 at *
  have ⟨hE, fE⟩ := run_rm (F := F) M σ2 (fun r => .buf j r) (fun r => .var (.q r)) w
    (by intro a b h _ he; simp at he; omega) (by intro a b h _ he; simp [Ex.vars] at he)
  generalize F.run M ((List.range w).map (fun r => (Var.buf j r, Ex.var (.q r)))) σ2 = σ2b at *
  have ⟨hC, fC⟩ := run_rm (F := F) M σ2b (fun r => .q r) (fun r => .sub (.var (.s 0 r)) (.var (.q r))) w
    (by intro a b h _ he; simp at he; omega) (by intro a b h _ he; simp [Ex.vars] at he; omega)
  generalize F.run M ((List.range w).map (fun r => (Var.q r, Ex.sub (.var (.s 0 r)) (.var (.q r))))) σ2b = σ3 at *
  have ⟨hD, fD⟩ := run_rm (F := F) M σ3 (fun r => .x (i * w + r)) (fun r => .add (.var (.x (i * w + r))) (.var (.q r))) w
    (by intro a b h _ he; simp at he; omega) (by intro a b h _ he; simp [Ex.vars] at he; omega)
  generalize F.run M ((List.range w).map (fun r => (Var.x (i * w + r), Ex.add (.var (.x (i * w + r))) (.var (.q r))))) σ3 = σ4 at *
  have hq2 : ∀ r, r < w → ∀ t, σ2 (.q r) t = F.add (σ (.buf j r) t) (or1 (σ (.x (i * w + r)) t)) := by
    intro r hr t
    rw [hB r hr]
    simp only [evalEx]
    rw [hA r hr, fA _ (by intro k _; simp)]
    simp only [evalEx]
  have h4 : ∀ r, r < w → σ4 (.buf j r) = σ2 (.q r) := by
    intro r hr
    rw [fD _ (by intro k _; simp), fC _ (by intro k _; simp), hE r hr]
    rfl
  refine ⟨?_, ?_, ?_⟩
  · intro r hr t
    show σ4 (.buf j r) t = _
    rw [h4 r hr, hq2 r hr]; rfl
  · intro r hr t
    show σ4 (.x (i * w + r)) t = F.add (σ (.x (i * w + r)) t) (F.sub (σ (.buf j r) t) (σ4 (.buf j r) t))
    rw [h4 r hr, hD r hr]
    simp only [evalEx]
    rw [fC _ (by intro k _; simp), fE _ (by intro k _; simp), fB _ (by intro k _; simp), fA _ (by intro k _; simp), hC r hr]
    simp only [evalEx]
    rw [fE (.q r) (by intro k _; simp), fE _ (by intro k _; simp), fB _ (by intro k _; simp), hA r hr]
    simp only [evalEx]
  · intro v h1 h2 h3
    have hq : ∀ k, v ≠ .q k := by rintro k rfl; simp [Var.scratch] at h1
    have hs : ∀ k, v ≠ .s 0 k := by rintro k rfl; simp [Var.scratch] at h1
    rw [fD v (fun k hk => h3 k (by omega)), fC v (fun k _ => hq k), fE v (fun k hk => h2 k hk), fB v (fun k _ => hq k), fA v (fun k _ => hs k)]

/-- The deposit into the last level. -/
theorem Gen.last_spec (M : Nat → Int → Flt) (σ : Regs) (expand : Bool) (j : Nat) (hw : w ≤ G.maxRW) (hi : i * w + w ≤ G.maxRW * G.T.unroll) :
    (∀ r, r < w → ∀ t, F.run M (addBlp (G.accv expand j) (G.accv expand j) (ev (G.xv.drop (i * w))) w) σ (accVar expand j r) t
        = F.add (σ (accVar expand j r) t) (or1 (σ (.x (i * w + r)) t)))
      ∧ (∀ v, (∀ r, r < w → v ≠ accVar expand j r) →
        F.run M (addBlp (G.accv expand j) (G.accv expand j) (ev (G.xv.drop (i * w))) w) σ v = σ v) := by
  have hacc : G.accv expand j = (List.range G.maxRW).map (fun r => accVar expand j r) := by
    unfold Gen.accv Gen.sv Gen.bufv accVar; cases expand <;> rfl
  rw [hacc, Gen.xv, drop_rm, ev_rm, addBlp_rm _ _ _ hw hw (by omega)]
  have ⟨hA, fA⟩ := run_rm (F := F) M σ (fun r => accVar expand j r)
    (fun r => .add (.var (accVar expand j r)) (.or1 (.var (.x (i * w + r))))) w
    (by intro a b h _ he; have := (accVar_inj.mp he).2; omega)
    (by intro a b h _ he
        simp only [Ex.vars, List.cons_append, List.nil_append, List.mem_cons, List.not_mem_nil, or_false] at he
        rcases he with he | he
        · have := (accVar_inj.mp he).2; omega
        · unfold accVar at he; cases expand <;> simp at he)
  exact ⟨fun r hr t => by rw [hA r hr]; rfl, fA⟩

/-- What the first level of `process0` must do. -/
structure Level0Spec (F : Fmt) (G : Gen) (expand : Bool) (w i : Nat) (σ τ : Regs) : Prop where
  acc : ∀ r, r < w → ∀ t, τ (accVar expand 0 r) t
    = F.add (σ (accVar expand 0 r) t) (or1 (F.mul (σ (.x (i * w + r)) t) (σ (.comp (r % G.suf)) t)))
  x : ∀ r, r < w → ∀ t, τ (.x (i * w + r)) t =
    if G.cplx then
      let q := F.sub (σ (accVar expand 0 r) t) (τ (accVar expand 0 r) t)
      F.add (F.add (σ (.x (i * w + r)) t) (F.mul q (σ (.expn (r % G.suf)) t))) (F.mul q (σ (.mask (r % G.suf)) t))
    else
      let q := F.mul (F.sub (σ (accVar expand 0 r) t) (τ (accVar expand 0 r) t)) (σ (.expn (r % G.suf)) t)
      F.add (F.add (σ (.x (i * w + r)) t) q) q
  frame : ∀ v, v.scratch expand = false → (∀ r, r < w → v ≠ accVar expand 0 r) → (∀ r, r < G.maxRW → v ≠ .x (i * w + r)) → τ v = σ v

theorem Gen.suf_pos : 0 < G.suf := by unfold Gen.suf Gen.pw; split <;> (try split) <;> omega

theorem Gen.level0_spec_true (M : Nat → Int → Flt) (σ : Regs) (hw : w ≤ G.maxRW) (hi : i * w + w ≤ G.maxRW * G.T.unroll) :
    Level0Spec F G true w i σ (F.run M (G.level0 true w i) σ) := by
  have hm1 : min G.maxRW w = w := by omega
  have hm2 : min w G.maxRW = w := by omega
  have hm3 : min (G.maxRW * G.T.unroll - i * w) w = w := by omega
  have hm4 : min w w = w := by omega
  unfold Gen.level0
  simp only [↓reduceIte]
  rw [Gen.qv, Gen.sv, Gen.xv, Gen.compv, Gen.expnv, Gen.maskv, take_rm, take_rm, drop_rm, ev_rm, ev_rm, ev_rm, ev_rm, setEqual_rm,
    vmulC_rm _ _ _ G.suf_pos, vmulC_rm _ _ _ G.suf_pos, vmulC_rm _ _ _ G.suf_pos, addBlp_rm _ _ _ hw hw (by omega),
    vsub_rm, setEqual_rm, vmulC_rm _ _ _ G.suf_pos, setEqual_rm, vadd_rm, vadd_rm, setEqual_rm, vadd_rm, vadd_rm, setEqual_rm, hm2, hm1, hm1, hm3, hm4, hm3]
  rw [run_append, run_append]
  have ⟨hA, fA⟩ := run_rm (F := F) M σ (fun r => .q r) (fun r => .var (.s 0 r)) w (by intro a b h _ he; simp at he; omega)
    (by intro a b h _; simp [Ex.vars])
  generalize F.run M ((List.range w).map (fun r => (Var.q r, Ex.var (.s 0 r)))) σ = σ1 at *
  have ⟨hB, fB⟩ := run_rm (F := F) M σ1 (fun r => .s 0 r) (fun r => .add (.var (.s 0 r)) (.or1 (.mul (.var (.x (i * w + r))) (.var (.comp (r % G.suf)))))) w
    (by intro a b h _ he; simp at he; omega) (by intro a b h _ he; simp [Ex.vars] at he; omega)
  generalize F.run M ((List.range w).map (fun r => (Var.s 0 r, Ex.add (.var (.s 0 r)) (.or1 (.mul (.var (.x (i * w + r))) (.var (.comp (r % G.suf)))))))) σ1 = σ2 at *
  have hs2 : ∀ r, r < w → ∀ t, σ2 (.s 0 r) t = F.add (σ (.s 0 r) t) (or1 (F.mul (σ (.x (i * w + r)) t) (σ (.comp (r % G.suf)) t))) := by
    intro r hr t
    rw [hB r hr]
    simp only [evalEx]
    rw [fA _ (by intro k _; simp), fA _ (by intro k _; simp), fA _ (by intro k _; simp)]
  have hq2 : ∀ r, r < w → σ2 (.q r) = σ (.s 0 r) := by
    intro r hr
    rw [fB _ (by intro k _; simp), hA r hr]; rfl
  have hx2 : ∀ k, σ2 (.x k) = σ (.x k) := by
    intro k; rw [fB _ (by intro k _; simp), fA _ (by intro k _; simp)]
  have he2 : ∀ k, σ2 (.expn k) = σ (.expn k) := by
    intro k; rw [fB _ (by intro k _; simp), fA _ (by intro k _; simp)]
  have hk2 : ∀ k, σ2 (.mask k) = σ (.mask k) := by
    intro k; rw [fB _ (by intro k _; simp), fA _ (by intro k _; simp)]
  have hf2 : ∀ v, v.scratch true = false → (∀ r, r < w → v ≠ .s 0 r) → σ2 v = σ v := by
    intro v h1 h2
    have hq : ∀ k, v ≠ .q k := by rintro k rfl; simp [Var.scratch] at h1
    rw [fB v (fun k hk => h2 k hk), fA v (fun k _ => hq k)]
  by_cases hc : G.cplx = true
  · simp only [hc, ↓reduceIte]
    rw [run_append]
    have ⟨hC, fC⟩ := run_rm (F := F) M σ2 (fun r => .q r) (fun r => .sub (.var (.q r)) (.var (.s 0 r))) w
      (by intro a b h _ he; simp at he; omega) (by intro a b h _ he; simp [Ex.vars] at he; omega)
    generalize F.run M ((List.range w).map (fun r => (Var.q r, Ex.sub (.var (.q r)) (.var (.s 0 r))))) σ2 = σ3 at *
    have ⟨hD, fD⟩ := run_rm (F := F) M σ3 (fun r => .x (i * w + r))
      (fun r => .add (.add (.var (.x (i * w + r))) (.mul (.var (.q r)) (.var (.expn (r % G.suf))))) (.mul (.var (.q r)) (.var (.mask (r % G.suf))))) w
      (by intro a b h _ he; simp at he; omega) (by intro a b h _ he; simp [Ex.vars] at he; omega)
    generalize F.run M ((List.range w).map (fun r => (Var.x (i * w + r),
      Ex.add (.add (.var (.x (i * w + r))) (.mul (.var (.q r)) (.var (.expn (r % G.suf))))) (.mul (.var (.q r)) (.var (.mask (r % G.suf))))))) σ3 = σ4 at *
    have h4 : ∀ r, r < w → σ4 (.s 0 r) = σ2 (.s 0 r) := by
      intro r _; rw [fD _ (by intro k _; simp), fC _ (by intro k _; simp)]
    refine ⟨?_, ?_, ?_⟩
    · intro r hr t
      show σ4 (.s 0 r) t = _
      rw [h4 r hr, hs2 r hr]; rfl
    · intro r hr t
      simp only [hc, ↓reduceIte]
      show σ4 (.x (i * w + r)) t = F.add (F.add _ (F.mul (F.sub (σ (.s 0 r) t) (σ4 (.s 0 r) t)) _)) (F.mul (F.sub (σ (.s 0 r) t) (σ4 (.s 0 r) t)) _)
      rw [h4 r hr, hD r hr]
      simp only [evalEx]
      rw [fC _ (by intro k _; simp), hx2, fC (.expn _) (by intro k _; simp), he2, fC (.mask _) (by intro k _; simp), hk2, hC r hr]
      simp only [evalEx]
      rw [hq2 r hr]
    · intro v h1 h2 h3
      have hq : ∀ k, v ≠ .q k := by rintro k rfl; simp [Var.scratch] at h1
      rw [fD v (fun k hk => h3 k (by omega)), fC v (fun k _ => hq k)]
      exact hf2 v h1 h2
  · simp only [hc, Bool.false_eq_true, ↓reduceIte]
    rw [run_append]
    have ⟨hC, fC⟩ := run_rm (F := F) M σ2 (fun r => .q r) (fun r => .mul (.sub (.var (.q r)) (.var (.s 0 r))) (.var (.expn (r % G.suf)))) w
      (by intro a b h _ he; simp at he; omega) (by intro a b h _ he; simp [Ex.vars] at he; omega)
    generalize F.run M ((List.range w).map (fun r => (Var.q r, Ex.mul (.sub (.var (.q r)) (.var (.s 0 r))) (.var (.expn (r % G.suf)))))) σ2 = σ3 at *
    have ⟨hD, fD⟩ := run_rm (F := F) M σ3 (fun r => .x (i * w + r))
      (fun r => .add (.add (.var (.x (i * w + r))) (.var (.q r))) (.var (.q r))) w
      (by intro a b h _ he; simp at he; omega) (by intro a b h _ he; simp [Ex.vars] at he; omega)
    generalize F.run M ((List.range w).map (fun r => (Var.x (i * w + r),
      Ex.add (.add (.var (.x (i * w + r))) (.var (.q r))) (.var (.q r))))) σ3 = σ4 at *
    have h4 : ∀ r, r < w → σ4 (.s 0 r) = σ2 (.s 0 r) := by
      intro r _; rw [fD _ (by intro k _; simp), fC _ (by intro k _; simp)]
    refine ⟨?_, ?_, ?_⟩
    · intro r hr t
      show σ4 (.s 0 r) t = _
      rw [h4 r hr, hs2 r hr]; rfl
    · intro r hr t
      simp only [hc, Bool.false_eq_true, ↓reduceIte]
      show σ4 (.x (i * w + r)) t = F.add (F.add _ (F.mul (F.sub (σ (.s 0 r) t) (σ4 (.s 0 r) t)) _)) (F.mul (F.sub (σ (.s 0 r) t) (σ4 (.s 0 r) t)) _)
      rw [h4 r hr, hD r hr]
      simp only [evalEx]
      rw [fC _ (by intro k _; simp), hx2, hC r hr]
      simp only [evalEx]
      rw [hq2 r hr, he2]
    · intro v h1 h2 h3
      have hq : ∀ k, v ≠ .q k := by rintro k rfl; simp [Var.scratch] at h1
      rw [fD v (fun k hk => h3 k (by omega)), fC v (fun k _ => hq k)]
      exact hf2 v h1 h2

theorem Gen.level0_spec_false (M : Nat → Int → Flt) (σ : Regs) (hw : w ≤ G.maxRW) (hi : i * w + w ≤ G.maxRW * G.T.unroll) :
    Level0Spec F G false w i σ (F.run M (G.level0 false w i) σ) := by
  have hm1 : min G.maxRW w = w := by omega
  have hm2 : min w G.maxRW = w := by omega
  have hm3 : min (G.maxRW * G.T.unroll - i * w) w = w := by omega
  have hm4 : min w w = w := by omega
  obtain ⟨L, hL⟩ : ∃ L, L = min (min (G.maxRW * G.T.unroll - i * w) G.maxRW) G.maxRW := ⟨_, rfl⟩
  have hLw : w ≤ L := by omega
  have hLm : L ≤ G.maxRW := by omega
  have hm5 : min (G.maxRW * G.T.unroll - i * w) L = L := by omega
  unfold Gen.level0
  simp only [Bool.false_eq_true, ↓reduceIte]
  rw [Gen.qv, Gen.sv, Gen.bufv, Gen.xv, Gen.compv, Gen.expnv, Gen.maskv, take_rm, take_rm, drop_rm, ev_rm, ev_rm, ev_rm, ev_rm, ev_rm, setEqual_rm,
    vmulC_rm _ _ _ G.suf_pos, vmulC_rm _ _ _ G.suf_pos, vmulC_rm _ _ _ G.suf_pos, addBlp_rm _ _ _ hw hw (by omega),
    setEqual_rm, vsub_rm, setEqual_rm, vmulC_rm _ _ _ G.suf_pos, setEqual_rm, vadd_rm, vadd_rm, setEqual_rm, vadd_rm, vadd_rm, setEqual_rm, hm2, hm1, hm1, hm3, hm4, hm3, ← hL, hm5]
  rw [run_append, run_append, run_append]
  have ⟨hA, fA⟩ := run_rm (F := F) M σ (fun r => .s 0 r) (fun r => .var (.buf 0 r)) w (by intro a b h _ he; simp at he; omega)
    (by intro a b h _; simp [Ex.vars])
  generalize F.run M ((List.range w).map (fun r => (Var.s 0 r, Ex.var (.buf 0 r)))) σ = σ1 at *
  have ⟨hB, fB⟩ := run_rm (F := F) M σ1 (fun r => .q r) (fun r => .add (.var (.s 0 r)) (.or1 (.mul (.var (.x (i * w + r))) (.var (.comp (r % G.suf)))))) w
    (by intro a b h _ he; simp at he; omega) (by intro a b h _ he; simp [Ex.vars] at he)
  generalize F.run M ((List.range w).map (fun r => (Var.q r, Ex.add (.var (.s 0 r)) (.or1 (.mul (.var (.x (i * w + r))) (.var (.comp (r % G.suf)))))))) σ1 = σ1b at *
  have ⟨hE, fE⟩ := run_rm (F := F) M σ1b (fun r => .buf 0 r) (fun r => .var (.q r)) w
    (by intro a b h _ he; simp at he; omega) (by intro a b h _ he; simp [Ex.vars] at he)
  generalize F.run M ((List.range w).map (fun r => (Var.buf 0 r, Ex.var (.q r)))) σ1b = σ2 at *
  have hq2 : ∀ r, r < w → ∀ t, σ2 (.q r) t = F.add (σ (.buf 0 r) t) (or1 (F.mul (σ (.x (i * w + r)) t) (σ (.comp (r % G.suf)) t))) := by
    intro r hr t
    rw [fE _ (by intro k _; simp), hB r hr]
    simp only [evalEx]
    rw [hA r hr, fA _ (by intro k _; simp), fA _ (by intro k _; simp)]
    simp only [evalEx]
  have hb2 : ∀ r, r < w → σ2 (.buf 0 r) = σ2 (.q r) := by
    intro r hr
    rw [hE r hr, fE (.q r) (by intro k _; simp)]; rfl
  have hs2 : ∀ r, r < w → σ2 (.s 0 r) = σ (.buf 0 r) := by
    intro r hr
    rw [fE _ (by intro k _; simp), fB _ (by intro k _; simp), hA r hr]; rfl
  have hx2 : ∀ k, σ2 (.x k) = σ (.x k) := by
    intro k; rw [fE _ (by intro k _; simp), fB _ (by intro k _; simp), fA _ (by intro k _; simp)]
  have he2 : ∀ k, σ2 (.expn k) = σ (.expn k) := by
    intro k; rw [fE _ (by intro k _; simp), fB _ (by intro k _; simp), fA _ (by intro k _; simp)]
  have hk2 : ∀ k, σ2 (.mask k) = σ (.mask k) := by
    intro k; rw [fE _ (by intro k _; simp), fB _ (by intro k _; simp), fA _ (by intro k _; simp)]
  have hf2 : ∀ v, v.scratch false = false → (∀ r, r < w → v ≠ .buf 0 r) → σ2 v = σ v := by
    intro v h1 h2
    have hq : ∀ k, v ≠ .q k := by rintro k rfl; simp [Var.scratch] at h1
    have hs : ∀ k, v ≠ .s 0 k := by rintro k rfl; simp [Var.scratch] at h1
    rw [fE v (fun k hk => h2 k hk), fB v (fun k _ => hq k), fA v (fun k _ => hs k)]
  by_cases hc : G.cplx = true
  · simp only [hc, ↓reduceIte]
    rw [run_append]
    have ⟨hC, fC⟩ := run_rm (F := F) M σ2 (fun r => .q r) (fun r => .sub (.var (.s 0 r)) (.var (.q r))) w
      (by intro a b h _ he; simp at he; omega) (by intro a b h _ he; simp [Ex.vars] at he; omega)
    generalize F.run M ((List.range w).map (fun r => (Var.q r, Ex.sub (.var (.s 0 r)) (.var (.q r))))) σ2 = σ3 at *
    have ⟨hD, fD⟩ := run_rm (F := F) M σ3 (fun r => .x (i * w + r))
      (fun r => .add (.add (.var (.x (i * w + r))) (.mul (.var (.q r)) (.var (.expn (r % G.suf))))) (.mul (.var (.q r)) (.var (.mask (r % G.suf))))) L
      (by intro a b h _ he; simp at he; omega) (by intro a b h _ he; simp [Ex.vars] at he; omega)
    generalize F.run M ((List.range L).map (fun r => (Var.x (i * w + r),
      Ex.add (.add (.var (.x (i * w + r))) (.mul (.var (.q r)) (.var (.expn (r % G.suf))))) (.mul (.var (.q r)) (.var (.mask (r % G.suf))))))) σ3 = σ4 at *
    have h4 : ∀ r, r < w → σ4 (.buf 0 r) = σ2 (.q r) := by
      intro r hr; rw [fD _ (by intro k _; simp), fC _ (by intro k _; simp), hb2 r hr]
    refine ⟨?_, ?_, ?_⟩
    · intro r hr t
      show σ4 (.buf 0 r) t = _
      rw [h4 r hr, hq2 r hr]; rfl
    · intro r hr t
      simp only [hc, ↓reduceIte]
      show σ4 (.x (i * w + r)) t = F.add (F.add _ (F.mul (F.sub (σ (.buf 0 r) t) (σ4 (.buf 0 r) t)) _)) (F.mul (F.sub (σ (.buf 0 r) t) (σ4 (.buf 0 r) t)) _)
      rw [h4 r hr, hD r (by omega)]
      simp only [evalEx]
      rw [fC _ (by intro k _; simp), hx2, fC (.expn _) (by intro k _; simp), he2, fC (.mask _) (by intro k _; simp), hk2, hC r hr]
      simp only [evalEx]
      rw [hs2 r hr]
    · intro v h1 h2 h3
      have hq : ∀ k, v ≠ .q k := by rintro k rfl; simp [Var.scratch] at h1
      rw [fD v (fun k hk => h3 k (by omega)), fC v (fun k _ => hq k)]
      exact hf2 v h1 h2
  · simp only [hc, Bool.false_eq_true, ↓reduceIte]
    rw [run_append]
    have ⟨hC, fC⟩ := run_rm (F := F) M σ2 (fun r => .q r) (fun r => .mul (.sub (.var (.s 0 r)) (.var (.q r))) (.var (.expn (r % G.suf)))) w
      (by intro a b h _ he; simp at he; omega) (by intro a b h _ he; simp [Ex.vars] at he; omega)
    generalize F.run M ((List.range w).map (fun r => (Var.q r, Ex.mul (.sub (.var (.s 0 r)) (.var (.q r))) (.var (.expn (r % G.suf)))))) σ2 = σ3 at *
    have ⟨hD, fD⟩ := run_rm (F := F) M σ3 (fun r => .x (i * w + r))
      (fun r => .add (.add (.var (.x (i * w + r))) (.var (.q r))) (.var (.q r))) w
      (by intro a b h _ he; simp at he; omega) (by intro a b h _ he; simp [Ex.vars] at he; omega)
    generalize F.run M ((List.range w).map (fun r => (Var.x (i * w + r),
      Ex.add (.add (.var (.x (i * w + r))) (.var (.q r))) (.var (.q r))))) σ3 = σ4 at *
    have h4 : ∀ r, r < w → σ4 (.buf 0 r) = σ2 (.q r) := by
      intro r hr; rw [fD _ (by intro k _; simp), fC _ (by intro k _; simp), hb2 r hr]
    refine ⟨?_, ?_, ?_⟩
    · intro r hr t
      show σ4 (.buf 0 r) t = _
      rw [h4 r hr, hq2 r hr]; rfl
    · intro r hr t
      simp only [hc, Bool.false_eq_true, ↓reduceIte]
      show σ4 (.x (i * w + r)) t = F.add (F.add _ (F.mul (F.sub (σ (.buf 0 r) t) (σ4 (.buf 0 r) t)) _)) (F.mul (F.sub (σ (.buf 0 r) t) (σ4 (.buf 0 r) t)) _)
      rw [h4 r hr, hD r hr]
      simp only [evalEx]
      rw [fC _ (by intro k _; simp), hx2, hC r hr]
      simp only [evalEx]
      rw [hs2 r hr, he2]
    · intro v h1 h2 h3
      have hq : ∀ k, v ≠ .q k := by rintro k rfl; simp [Var.scratch] at h1
      rw [fD v (fun k hk => h3 k (by omega)), fC v (fun k _ => hq k)]
      exact hf2 v h1 h2

end

end Repro
