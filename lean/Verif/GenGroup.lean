import Verif.GenProcess
/-!
# A group of registers, all groups of a body
-/

namespace Repro
open Fmt
variable {F : Fmt}

/-- The accumulators of one lane. -/
def colOf (expand : Bool) (fold : Nat) (σ : Regs) (r t : Nat) : List Flt := (List.range fold).map (fun j => σ (accVar expand j r) t)

/-- One number deposited into one lane with the factors `c`, `h`, `m`. -/
def gstep (F : Fmt) (cplx idx0 : Bool) (c h m x : Flt) : List Flt → List Flt
  | [] => []
  | p :: ps =>
    if idx0 then
      let s := F.add p (or1 (F.mul x c))
      if cplx then
        let q := F.sub p s
        s :: F.kloop (F.add (F.add x (F.mul q h)) (F.mul q m)) ps
      else
        let q := F.mul (F.sub p s) h
        s :: F.kloop (F.add (F.add x q) q) ps
    else F.kloop x (p :: ps)

theorem kloop_cons2 (x m m' : Flt) (ms : List Flt) :
    F.kloop x (m :: m' :: ms) = F.add m (or1 x) :: F.kloop (F.add x (F.sub m (F.add m (or1 x)))) (m' :: ms) := rfl

theorem range'_snoc (a n : Nat) : List.range' a (n + 1) = List.range' a n ++ [a + n] := by
  rw [List.range'_concat, Nat.one_mul]

theorem x_not_acc (expand : Bool) (k j r : Nat) : Var.x k ≠ accVar expand j r := by unfold accVar; cases expand <;> simp

theorem acc_not_x (expand : Bool) (k j r : Nat) : accVar expand j r ≠ Var.x k := by unfold accVar; cases expand <;> simp

theorem acc_scratch (expand : Bool) (j r : Nat) : (accVar expand j r).scratch expand = false := by
  unfold accVar; cases expand <;> cases j <;> simp [Var.scratch]

/-- The levels `a, ..., a + n - 1`. -/
theorem levels_spec {expand : Bool} {m w i fold : Nat} (M : Nat → Int → Flt) (lev : Nat → Code)
    (hlev : ∀ j σ, LevelSpec F expand m w i j σ (F.run M (lev j) σ)) (a : Nat) (σ : Regs) : ∀ n, a + n + 1 ≤ fold →
    (∀ r, r < w → ∀ t, F.kloop (σ (.x (i * w + r)) t) ((List.range' a (fold - a)).map (fun j => σ (accVar expand j r) t))
        = (List.range' a n).map (fun j => F.run M ((List.range' a n).flatMap lev) σ (accVar expand j r) t)
          ++ F.kloop (F.run M ((List.range' a n).flatMap lev) σ (.x (i * w + r)) t)
            ((List.range' (a + n) (fold - a - n)).map (fun j => F.run M ((List.range' a n).flatMap lev) σ (accVar expand j r) t)))
      ∧ (∀ v, v.scratch expand = false → (∀ j r, a ≤ j → j < a + n → r < w → v ≠ accVar expand j r) →
        (∀ r, r < m → v ≠ .x (i * w + r)) → F.run M ((List.range' a n).flatMap lev) σ v = σ v) := by
  intro n
  induction n with
  | zero => intro _; exact ⟨fun r _ t => rfl, fun v _ _ _ => rfl⟩
  | succ n ih =>
    intro hn
    have ⟨h1, h2⟩ := ih (by omega)
    have hrun : F.run M ((List.range' a (n + 1)).flatMap lev) σ = F.run M (lev (a + n)) (F.run M ((List.range' a n).flatMap lev) σ) := by
      rw [List.range'_concat, List.flatMap_append, run_append]; simp
    rw [hrun]
    generalize hτ : F.run M ((List.range' a n).flatMap lev) σ = τ at *
    have hl := hlev (a + n) τ
    generalize F.run M (lev (a + n)) τ = ρ at *
    refine ⟨?_, ?_⟩
    · intro r hr t
      rw [h1 r hr t]
      obtain ⟨k, hk⟩ : ∃ k, fold - a - n = k + 2 := ⟨fold - a - n - 2, by omega⟩
      have hk' : fold - a - (n + 1) = k + 1 := by omega
      rw [hk, hk', range'_snoc a n, List.map_append, List.append_assoc, List.range'_succ, List.range'_succ, List.map_cons, List.map_cons, kloop_cons2]
      have hacc : ∀ j, j ≠ a + n → ρ (accVar expand j r) t = τ (accVar expand j r) t := by
        intro j hj
        exact congrFun (hl.frame _ (acc_scratch _ _ _) (fun r' _ he => hj (accVar_inj.mp he).1) (fun r' _ => acc_not_x _ _ _ _)) t
      congr 1
      · apply List.map_congr_left
        intro j hj
        have := List.mem_range'_1.mp hj
        exact (hacc j (by omega)).symm
      · rw [← hl.acc r hr t, ← hl.x r hr t, show a + (n + 1) = a + n + 1 from rfl, List.range'_succ, List.map_cons]
        show _ = _ :: _
        congr 2
        congr 1
        · exact (hacc _ (by omega)).symm
        · apply List.map_congr_left
          intro j hj
          have := List.mem_range'_1.mp hj
          exact (hacc j (by omega)).symm
    · intro v hv ha hx
      rw [hl.frame v hv (fun r hr => ha (a + n) r (by omega) (by omega) hr) hx]
      exact h2 v hv (fun j r h3 h4 => ha j r h3 (by omega)) hx

/-- What the statements for one group of `w` load registers must do. -/
structure GroupSpec (F : Fmt) (G : Gen) (expand idx0 : Bool) (fold w i : Nat) (σ τ : Regs) : Prop where
  col : ∀ r, r < w → ∀ t, colOf expand fold τ r t
    = gstep F G.cplx idx0 (σ (.comp (r % G.suf)) t) (σ (.expn (r % G.suf)) t) (σ (.mask (r % G.suf)) t) (σ (.x (i * w + r)) t)
        (colOf expand fold σ r t)
  rest : ∀ r, w ≤ r → ∀ t, colOf expand fold τ r t = colOf expand fold σ r t
  x : ∀ k, (k < i * w ∨ i * w + G.maxRW ≤ k) → τ (.x k) = σ (.x k)
  comp : ∀ k, τ (.comp k) = σ (.comp k)
  expn : ∀ k, τ (.expn k) = σ (.expn k)
  mask : ∀ k, τ (.mask k) = σ (.mask k)
  y : ∀ k j, τ (.y k j) = σ (.y k j)

/-- The statements `process` and `process0` write for one group. -/
def Gen.group (G : Gen) (expand idx0 : Bool) (fold w i : Nat) : Code :=
  if idx0 then
    G.level0 expand w i ++
    if expand then
      (List.range' 1 (fold - 2)).flatMap (G.level w i)
        ++ addBlp (G.sv (fold - 1)) (G.sv (fold - 1)) (ev (G.xv.drop (i * w))) w
    else
      (List.range' 1 (fold - 2)).flatMap (G.levelBuf w i)
        ++ addBlp (G.bufv (max (fold - 1) 1)) (G.bufv (max (fold - 1) 1)) (ev (G.xv.drop (i * w))) w
  else
    if expand then
      (List.range (fold - 1)).flatMap (G.level w i)
        ++ addBlp (G.sv (fold - 1)) (G.sv (fold - 1)) (ev (G.xv.drop (i * w))) w
    else
      (List.range (fold - 1)).flatMap (G.levelBuf w i)
        ++ addBlp (G.bufv (fold - 1)) (G.bufv (fold - 1)) (ev (G.xv.drop (i * w))) w

theorem Gen.group_eq (G : Gen) (expand idx0 : Bool) (fold w i : Nat) : G.group expand idx0 fold w i =
    (if idx0 then G.level0 expand w i else [])
      ++ (List.range' (if idx0 then 1 else 0) (if idx0 then fold - 2 else fold - 1)).flatMap (if expand then G.level w i else G.levelBuf w i)
      ++ addBlp (G.accv expand (if idx0 && !expand then max (fold - 1) 1 else fold - 1)) (G.accv expand (if idx0 && !expand then max (fold - 1) 1 else fold - 1))
          (ev (G.xv.drop (i * w))) w := by
  unfold Gen.group Gen.accv
  cases expand <;> cases idx0 <;> simp [List.range_eq_range']

theorem Gen.group_spec {G : Gen} {expand : Bool} {fold w i : Nat} (M : Nat → Int → Flt) (σ : Regs) (idx0 : Bool)
    (hf : 1 ≤ fold) (he : expand = true → 2 ≤ fold) (hw : w ≤ G.maxRW) (hi : i * w + w ≤ G.maxRW * G.T.unroll) :
    GroupSpec F G expand idx0 fold w i σ (F.run M (G.group expand idx0 fold w i) σ) := by
  rw [Gen.group_eq, run_append, run_append]
  have hlev : ∀ j σ, LevelSpec F expand G.maxRW w i j σ (F.run M ((if expand then G.level w i else G.levelBuf w i) j) σ) := by
    intro j σ
    cases expand
    · exact G.levelBuf_spec M σ j hw hi
    · exact G.level_spec M σ j hw hi
  have hcomp : ∀ k j r, Var.comp k ≠ accVar expand j r := by intro k j r; unfold accVar; cases expand <;> simp
  have hexpn : ∀ k j r, Var.expn k ≠ accVar expand j r := by intro k j r; unfold accVar; cases expand <;> simp
  have hmask : ∀ k j r, Var.mask k ≠ accVar expand j r := by intro k j r; unfold accVar; cases expand <;> simp
  have hy : ∀ k l j r, Var.y k l ≠ accVar expand j r := by intro k l j r; unfold accVar; cases expand <;> simp
  cases idx0
  · simp only [Bool.false_eq_true, ↓reduceIte, Bool.false_and, run_nil]
    have ⟨h1, h2⟩ := levels_spec (F := F) (fold := fold) M (if expand then G.level w i else G.levelBuf w i) hlev 0 σ (fold - 1) (by omega)
    generalize F.run M ((List.range' 0 (fold - 1)).flatMap (if expand then G.level w i else G.levelBuf w i)) σ = τ at *
    have ⟨h3, h4⟩ := G.last_spec (F := F) M τ expand (fold - 1) hw hi
    generalize F.run M (addBlp (G.accv expand (fold - 1)) (G.accv expand (fold - 1)) (ev (G.xv.drop (i * w))) w) τ = ρ at *
    have hfr : ∀ v, v.scratch expand = false → (∀ j r, r < w → j < fold → v ≠ accVar expand j r) → (∀ r, r < G.maxRW → v ≠ .x (i * w + r)) → ρ v = σ v := by
      intro v hv ha hx
      rw [h4 v (fun r hr => ha _ r hr (by omega)), h2 v hv (fun j r _ hj hr => ha j r hr (by omega)) hx]
    refine ⟨?_, ?_, ?_, ?_, ?_, ?_, ?_⟩
    · intro r hr t
      unfold colOf
      obtain ⟨k, rfl⟩ : ∃ k, fold = k + 1 := ⟨fold - 1, by omega⟩
      have hg : ∀ c h m x (l : List Flt), gstep F G.cplx false c h m x l = F.kloop x l := by
        intro c h m x l; cases l <;> simp [gstep, kloop]
      rw [hg, List.range_eq_range']
      have := h1 r hr t
      rw [Nat.sub_zero] at this
      rw [this]
      have e1 : k + 1 - (k + 1 - 1) = 1 := by omega
      rw [e1, range'_snoc 0 k, List.map_append]
      congr 1
      · apply List.map_congr_left
        intro j hj
        have := List.mem_range'_1.mp hj
        rw [h4 _ (fun r' _ he => by have := (accVar_inj.mp he).1; omega)]
      · simp only [List.range'_one, List.map_cons, List.map_nil, kloop, Nat.zero_add]
        rw [← h3 r hr t]
        rfl
    · intro r hr t
      unfold colOf
      apply List.map_congr_left
      intro j _
      exact congrFun (hfr _ (acc_scratch _ _ _) (fun j' r' hr' _ he => by have := (accVar_inj.mp he).2; omega) (fun r' _ => acc_not_x _ _ _ _)) t
    · intro k hk
      refine hfr _ (by simp [Var.scratch]) (fun j r _ _ => x_not_acc _ _ _ _) (fun r hr he => ?_)
      have := (Var.x.inj he); omega
    · intro k; exact hfr _ (by simp [Var.scratch]) (fun j r _ _ => hcomp _ _ _) (by simp)
    · intro k; exact hfr _ (by simp [Var.scratch]) (fun j r _ _ => hexpn _ _ _) (by simp)
    · intro k; exact hfr _ (by simp [Var.scratch]) (fun j r _ _ => hmask _ _ _) (by simp)
    · intro k l; exact hfr _ (by simp [Var.scratch]) (fun j r _ _ => hy _ _ _ _) (by simp)
  · simp only [↓reduceIte, Bool.true_and]
    have h0 : Level0Spec F G expand w i σ (F.run M (G.level0 expand w i) σ) := by
      cases expand
      · exact G.level0_spec_false M σ hw hi
      · exact G.level0_spec_true M σ hw hi
    generalize F.run M (G.level0 expand w i) σ = σ0 at *
    obtain ⟨lst, hlst⟩ : ∃ lst, lst = (if (!expand) = true then max (fold - 1) 1 else fold - 1) := ⟨_, rfl⟩
    rw [← hlst]
    have hlst2 : 2 ≤ fold → lst = fold - 1 := by intro h; rw [hlst]; split <;> omega
    have hlst1 : fold = 1 → lst = 1 := by
      intro h; rw [hlst, if_pos]
      · omega
      · cases expand
        · rfl
        · have := he rfl; omega
    by_cases hf1 : fold = 1
    · have hr0 : fold - 2 = 0 := by omega
      rw [hr0]
      simp only [List.range'_zero, List.flatMap_nil, run_nil]
      have ⟨h3, h4⟩ := G.last_spec (F := F) M σ0 expand lst hw hi
      generalize F.run M (addBlp (G.accv expand lst) (G.accv expand lst) (ev (G.xv.drop (i * w))) w) σ0 = ρ at *
      have hl1 := hlst1 hf1
      subst hf1
      subst hl1
      have hfr : ∀ v, v.scratch expand = false → (∀ j r, r < w → v ≠ accVar expand j r) → (∀ r, r < G.maxRW → v ≠ .x (i * w + r)) → ρ v = σ v := by
        intro v hv ha hx
        rw [h4 v (fun r hr => ha _ r hr), h0.frame v hv (fun r hr => ha _ r hr) hx]
      refine ⟨?_, ?_, ?_, ?_, ?_, ?_, ?_⟩
      · intro r hr t
        have e1 : ρ (accVar expand 0 r) = σ0 (accVar expand 0 r) := h4 _ (fun r' _ he => by have := (accVar_inj.mp he).1; omega)
        simp only [colOf, List.range_one, List.map_cons, List.map_nil, gstep, ↓reduceIte, kloop, e1, ite_self]
        rw [h0.acc r hr t]
      · intro r hr t
        unfold colOf
        apply List.map_congr_left
        intro j _
        exact congrFun (hfr _ (acc_scratch _ _ _) (fun j' r' hr' he => by have := (accVar_inj.mp he).2; omega) (fun r' _ => acc_not_x _ _ _ _)) t
      · intro k hk
        refine hfr _ (by simp [Var.scratch]) (fun j r _ => x_not_acc _ _ _ _) (fun r hr he => ?_)
        have := (Var.x.inj he); omega
      · intro k; exact hfr _ (by simp [Var.scratch]) (fun j r _ => hcomp _ _ _) (by simp)
      · intro k; exact hfr _ (by simp [Var.scratch]) (fun j r _ => hexpn _ _ _) (by simp)
      · intro k; exact hfr _ (by simp [Var.scratch]) (fun j r _ => hmask _ _ _) (by simp)
      · intro k l; exact hfr _ (by simp [Var.scratch]) (fun j r _ => hy _ _ _ _) (by simp)
    · have hf2 : 2 ≤ fold := by omega
      have hl2 := hlst2 hf2
      rw [hl2]
      have ⟨h1, h2⟩ := levels_spec (F := F) (fold := fold) M (if expand then G.level w i else G.levelBuf w i) hlev 1 σ0 (fold - 2) (by omega)
      generalize F.run M ((List.range' 1 (fold - 2)).flatMap (if expand then G.level w i else G.levelBuf w i)) σ0 = τ at *
      have ⟨h3, h4⟩ := G.last_spec (F := F) M τ expand (fold - 1) hw hi
      generalize F.run M (addBlp (G.accv expand (fold - 1)) (G.accv expand (fold - 1)) (ev (G.xv.drop (i * w))) w) τ = ρ at *
      have hfr : ∀ v, v.scratch expand = false → (∀ j r, r < w → j < fold → v ≠ accVar expand j r) → (∀ r, r < G.maxRW → v ≠ .x (i * w + r)) → ρ v = σ v := by
        intro v hv ha hx
        rw [h4 v (fun r hr => ha _ r hr (by omega)), h2 v hv (fun j r _ hj hr => ha j r hr (by omega)) hx,
          h0.frame v hv (fun r hr => ha 0 r hr (by omega)) hx]
      refine ⟨?_, ?_, ?_, ?_, ?_, ?_, ?_⟩
      · intro r hr t
        unfold colOf
        obtain ⟨k, rfl⟩ : ∃ k, fold = k + 2 := ⟨fold - 2, by omega⟩
        have hacc0 : ∀ j, 1 ≤ j → σ0 (accVar expand j r) t = σ (accVar expand j r) t := by
          intro j hj
          exact congrFun (h0.frame _ (acc_scratch _ _ _) (fun r' _ he => by have := (accVar_inj.mp he).1; omega) (fun r' _ => acc_not_x _ _ _ _)) t
        have hρ0 : ρ (accVar expand 0 r) t = σ0 (accVar expand 0 r) t := by
          rw [h4 _ (fun r' _ he => by have := (accVar_inj.mp he).1; omega)]
          exact congrFun (h2 _ (acc_scratch _ _ _) (fun j r' h1 _ _ he => by have := (accVar_inj.mp he).1; omega) (fun r' _ => acc_not_x _ _ _ _)) t
        have hkl : F.kloop (σ0 (.x (i * w + r)) t) ((List.range' 1 (k + 1)).map (fun j => σ (accVar expand j r) t))
            = (List.range' 1 (k + 1)).map (fun j => ρ (accVar expand j r) t) := by
          have := h1 r hr t
          have e0 : (List.range' 1 (k + 2 - 1)).map (fun j => σ0 (accVar expand j r) t) = (List.range' 1 (k + 1)).map (fun j => σ (accVar expand j r) t) :=
            List.map_congr_left (fun j hj => hacc0 j (by have := List.mem_range'_1.mp hj; omega))
          rw [e0] at this
          rw [this]
          have e1 : k + 2 - 1 - (k + 2 - 2) = 1 := by omega
          rw [e1, range'_snoc 1 k, List.map_append]
          congr 1
          · apply List.map_congr_left
            intro j hj
            have := List.mem_range'_1.mp hj
            rw [h4 _ (fun r' _ he => by have := (accVar_inj.mp he).1; omega)]
          · simp only [List.range'_one, List.map_cons, List.map_nil, kloop]
            have e2 : 1 + (k + 2 - 2) = k + 2 - 1 := by omega
            rw [e2, ← h3 r hr t]
            have e3 : k + 2 - 1 = 1 + k := by omega
            rw [e3]
        have hsplit : ∀ f : Nat → Flt, (List.range (k + 2)).map f = f 0 :: (List.range' 1 (k + 1)).map f := by
          intro f; rw [List.range_eq_range', List.range'_succ, List.map_cons]
        rw [hsplit, hsplit, hρ0, ← hkl, h0.x r hr t, h0.acc r hr t]
        cases G.cplx <;> simp only [gstep, ↓reduceIte, Bool.false_eq_true]
      · intro r hr t
        unfold colOf
        apply List.map_congr_left
        intro j _
        exact congrFun (hfr _ (acc_scratch _ _ _) (fun j' r' hr' _ he => by have := (accVar_inj.mp he).2; omega) (fun r' _ => acc_not_x _ _ _ _)) t
      · intro k hk
        refine hfr _ (by simp [Var.scratch]) (fun j r _ _ => x_not_acc _ _ _ _) (fun r hr he => ?_)
        have := (Var.x.inj he); omega
      · intro k; exact hfr _ (by simp [Var.scratch]) (fun j r _ _ => hcomp _ _ _) (by simp)
      · intro k; exact hfr _ (by simp [Var.scratch]) (fun j r _ _ => hexpn _ _ _) (by simp)
      · intro k; exact hfr _ (by simp [Var.scratch]) (fun j r _ _ => hmask _ _ _) (by simp)
      · intro k l; exact hfr _ (by simp [Var.scratch]) (fun j r _ _ => hy _ _ _ _) (by simp)

/-- All groups of a body: either there is one, or the groups have full width. -/
theorem Gen.groups_spec {G : Gen} {expand : Bool} {fold w : Nat} (M : Nat → Int → Flt) (σ : Regs) (idx0 : Bool)
    (hf : 1 ≤ fold) (he : expand = true → 2 ≤ fold) (hw : w ≤ G.maxRW) : ∀ u, u * w ≤ G.maxRW * G.T.unroll → (u ≤ 1 ∨ w = G.maxRW) →
    (∀ r, r < w → ∀ t, colOf expand fold (F.run M ((List.range u).flatMap (G.group expand idx0 fold w)) σ) r t
        = (List.range u).foldl (fun L i => gstep F G.cplx idx0 (σ (.comp (r % G.suf)) t) (σ (.expn (r % G.suf)) t) (σ (.mask (r % G.suf)) t)
            (σ (.x (i * w + r)) t) L) (colOf expand fold σ r t))
      ∧ (∀ r, w ≤ r → ∀ t, colOf expand fold (F.run M ((List.range u).flatMap (G.group expand idx0 fold w)) σ) r t = colOf expand fold σ r t)
      ∧ (∀ k, u * w ≤ k → (u = 0 ∨ w = G.maxRW) → F.run M ((List.range u).flatMap (G.group expand idx0 fold w)) σ (.x k) = σ (.x k))
      ∧ (∀ k, F.run M ((List.range u).flatMap (G.group expand idx0 fold w)) σ (.comp k) = σ (.comp k))
      ∧ (∀ k, F.run M ((List.range u).flatMap (G.group expand idx0 fold w)) σ (.expn k) = σ (.expn k))
      ∧ (∀ k, F.run M ((List.range u).flatMap (G.group expand idx0 fold w)) σ (.mask k) = σ (.mask k))
      ∧ (∀ k j, F.run M ((List.range u).flatMap (G.group expand idx0 fold w)) σ (.y k j) = σ (.y k j)) := by
  intro u
  induction u with
  | zero => intro _ _; exact ⟨fun _ _ _ => rfl, fun _ _ _ => rfl, fun _ _ _ => rfl, fun _ => rfl, fun _ => rfl, fun _ => rfl, fun _ _ => rfl⟩
  | succ u ih =>
    intro hu hu1
    have hle : u * w ≤ (u + 1) * w := Nat.mul_le_mul_right _ (by omega)
    have hsm : (u + 1) * w = u * w + w := Nat.succ_mul u w
    have ⟨h1, h2, h3, h4, h5, h6, h7⟩ := ih (by omega) (by omega)
    have hrun : F.run M ((List.range (u + 1)).flatMap (G.group expand idx0 fold w)) σ
        = F.run M (G.group expand idx0 fold w u) (F.run M ((List.range u).flatMap (G.group expand idx0 fold w)) σ) := by
      rw [List.range_succ, List.flatMap_append, run_append]; simp
    rw [hrun]
    generalize F.run M ((List.range u).flatMap (G.group expand idx0 fold w)) σ = τ at *
    have hg := G.group_spec (F := F) M τ idx0 hf he hw (i := u) (by omega)
    generalize F.run M (G.group expand idx0 fold w u) τ = ρ at *
    refine ⟨?_, ?_, ?_, ?_, ?_, ?_, ?_⟩
    · intro r hr t
      rw [hg.col r hr t, h4, h5, h6, h1 r hr t, List.range_succ, List.foldl_append, h3 _ (by omega) (by omega)]
      rfl
    · intro r hr t; rw [hg.rest r hr t, h2 r hr t]
    · intro k hk hw'
      have hwm : w = G.maxRW := by omega
      rw [hg.x k (by omega), h3 k (by omega) (by omega)]
    · intro k; rw [hg.comp, h4]
    · intro k; rw [hg.expn, h5]
    · intro k; rw [hg.mask, h6]
    · intro k j; rw [hg.y, h7]

end Repro
