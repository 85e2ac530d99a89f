import Verif.GenCons
/-!
# `consolidate_into`
-/

namespace Repro
open Fmt
variable {F : Fmt}

theorem bcast_val (G : Gen) (M : Nat → Int → Flt) (σ : Regs) (j t : Nat) : F.evalEx M σ (G.bcast j) t = σ (.y (t % G.pw) j) 0 := by
  unfold Gen.bcast
  rcases G.pw_cases with ⟨hc, hpw⟩ | ⟨hc, hpw⟩
  · rw [hc, hpw, Nat.mod_one]; rfl
  · rw [hc, hpw]
    show (if t % 2 = 0 then σ (.y 0 j) 0 else σ (.y 1 j) 0) = _
    rcases Nat.mod_two_eq_zero_or_one t with h | h
    · rw [if_pos h, h]
    · rw [if_neg (by omega), h]

theorem lanes_eval (M : Nat → Int → Flt) (σ : Regs) (s0 : Var) (g : Nat → Nat) (t : Nat) : ∀ (L : List Nat) (e0 : Ex),
    F.evalEx M σ (L.foldl (fun a i => .add a (.lane s0 (g i))) e0) t = L.foldl (fun a i => F.add a (σ s0 (g i))) (F.evalEx M σ e0 t) := by
  intro L
  induction L with
  | nil => intro e0; rfl
  | cons a L ih => intro e0; rw [List.foldl_cons, ih]; rfl

theorem lanes_vars (s0 : Var) (g : Nat → Nat) : ∀ (L : List Nat) (e0 : Ex), (∀ v ∈ e0.vars, v = s0) →
    ∀ v ∈ (L.foldl (fun a i => Ex.add a (.lane s0 (g i))) e0).vars, v = s0 := by
  intro L
  induction L with
  | nil => intro e0 h; exact h
  | cons a L ih =>
    intro e0 h
    apply ih
    intro v hv
    simp only [Ex.vars, List.mem_append, List.mem_singleton] at hv
    exact hv.elim (h v) id

/-- The value of lane `L` of part `k` at level `j`. -/
def laneVal (G : Gen) (expand : Bool) (σ : Regs) (j k L : Nat) : Flt := σ (accVar expand j ((L * G.pw + k) / G.base)) ((L * G.pw + k) % G.base)

theorem Gen.lanes_count {G : Gen} (hT : G.T.OK F) : G.maxRW * G.base = G.e * G.T.pipe * G.pw := by
  obtain ⟨a, ha⟩ := hT.ts
  obtain ⟨b, hb⟩ := hT.pipe
  have hab : G.T.ts ∣ G.T.pipe := by
    rw [ha, hb]; apply Nat.pow_dvd_pow
    have := hT.tp; rw [ha, hb] at this
    exact (Nat.pow_le_pow_iff_right (by omega : 1 < 2)).1 this
  have := Gen.R0_mul hT (n := G.T.pipe) (fun _ => hab)
  have hM : G.maxRW = G.R0 G.T.pipe * G.e := rfl
  calc G.maxRW * G.base = G.e * (G.R0 G.T.pipe * G.base) := by rw [hM]; ring
    _ = _ := by rw [this]; ring

theorem Gen.e_pos (G : Gen) : 1 ≤ G.e := by
  unfold Gen.e
  have := G.pw_pos
  split <;> omega

theorem Gen.maxRW_pos {G : Gen} (hT : G.T.OK F) : 1 ≤ G.maxRW := by
  have h := Gen.lanes_count hT
  obtain ⟨b, hb⟩ := hT.pipe
  have : 0 < G.e * G.T.pipe * G.pw := Nat.mul_pos (Nat.mul_pos G.e_pos (by rw [hb]; exact Nat.two_pow_pos b)) G.pw_pos
  rw [← h] at this
  exact Nat.pos_of_mul_pos_right this

/-- `consolidate_into` for one level. -/
theorem Gen.consolidate_spec {G : Gen} (hT : G.T.OK F) (M : Nat → Int → Flt) (expand : Bool) (j : Nat) (σ : Regs) :
    (∀ k, k < G.pw → ∀ t, F.run M (G.consolidate j (G.accv expand j)) σ (.y k j) t =
        if G.T.simd = true ∧ ¬ (G.cplx = true ∧ G.T.ts = 1) then F.consSIMD G.T.ts (G.e * G.T.pipe) (laneVal G expand σ j k) (σ (.y k j) 0)
        else F.consSISD (G.e * G.T.pipe) (laneVal G expand σ j k) (σ (.y k j) 0))
      ∧ (∀ v, v ≠ .cons → (∀ r, v ≠ accVar expand j r) → (∀ k, v ≠ .y k j) → F.run M (G.consolidate j (G.accv expand j)) σ v = σ v) := by
  have hm1 := Gen.maxRW_pos hT
  have hN := Gen.lanes_count hT
  have hbp := Gen.base_pos hT
  have hpp := G.pw_pos
  obtain ⟨a, ha⟩ := hT.ts
  have hts0 : 0 < G.T.ts := by rw [ha]; exact Nat.two_pow_pos a
  rw [accv_rm]
  unfold Gen.consolidate
  dsimp only
  have hg0 : ((List.range G.maxRW).map (accVar expand j)).getD 0 default = accVar expand j 0 := getD_rm _ _ (by omega)
  have hlen : ((List.range G.maxRW).map (accVar expand j)).length = G.maxRW := by simp
  rw [hg0, hlen]
  have hs0c : accVar expand j 0 ≠ Var.cons := (cons_not_acc _ _ _).symm
  have hr1 : ∀ (f : Flt → Flt → Flt) (g : Nat → Flt) (z : Flt) (n : Nat), (List.range' 1 n).foldl (fun a r => f a (g r)) z
      = (List.range n).foldl (fun a i => f a (g (1 + i))) z := by
    intro f g z n; rw [List.range'_eq_map_range, List.foldl_map]
  by_cases hs : G.T.simd = true
  · rw [if_pos hs]
    have hbase : G.base = G.T.ts * G.pw := by unfold Gen.base; rw [if_pos hs]
    have htsz := Gen.tsz_simd hs
    have hNm : G.e * G.T.pipe = G.maxRW * G.T.ts := by
      apply Nat.eq_of_mul_eq_mul_right hpp
      rw [← hN, hbase, Nat.mul_assoc]
    rw [run_append, run_append]
    -- first assignment
    obtain ⟨σ1, hσ1⟩ : ∃ σ1, σ1 = F.run M (if (G.cplx && G.tsz == 1) = true then []
      else [(accVar expand j 0, Ex.sub (.var (accVar expand j 0)) (.first G.pw (.cst Fmt.zero) (G.bcast j)))]) σ := ⟨_, rfl⟩
    rw [← hσ1]
    have ha1 : (∀ t, σ1 (accVar expand j 0) t = if (G.cplx = true ∧ G.T.ts = 1) then σ (accVar expand j 0) t
          else F.sub (σ (accVar expand j 0) t) (if t < G.pw then zero else σ (.y (t % G.pw) j) 0))
        ∧ ∀ v, v ≠ accVar expand j 0 → σ1 v = σ v := by
      rw [hσ1, htsz]
      by_cases h : G.cplx = true ∧ G.T.ts = 1
      · have e : (G.cplx && G.T.ts == 1) = true := by simpa using h
        rw [if_pos e]
        refine ⟨fun t => by rw [if_pos h]; rfl, fun _ _ => rfl⟩
      · have e : ¬ (G.cplx && G.T.ts == 1) = true := by simpa using h
        rw [if_neg e]
        refine ⟨fun t => ?_, fun v hv => if_neg hv⟩
        rw [if_neg h]
        show (if _ = _ then _ else _ : Nat → Flt) t = _
        rw [if_pos rfl]
        show F.sub _ (if t < G.pw then zero else F.evalEx M σ (G.bcast j) t) = _
        rw [bcast_val]; rfl
    obtain ⟨ha1, ha2⟩ := ha1
    clear hσ1
    -- the other registers
    obtain ⟨σ2, hσ2⟩ : ∃ σ2, σ2 = F.run M (if 1 < G.maxRW then (Var.cons, G.bcast j) :: (((List.range G.maxRW).map (accVar expand j)).drop 1).map (Gen.accumInto (accVar expand j 0)) else []) σ1 := ⟨_, rfl⟩
    rw [← hσ2]
    have hb : (∀ t, σ2 (accVar expand j 0) t = (List.range' 1 (G.maxRW - 1)).foldl
          (fun a r => F.add a (F.sub (σ (accVar expand j r) t) (σ (.y (t % G.pw) j) 0))) (σ1 (accVar expand j 0) t))
        ∧ ∀ v, v ≠ .cons → v ≠ accVar expand j 0 → σ2 v = σ1 v := by
      by_cases h : 1 < G.maxRW
      · rw [if_pos h, run_cons, drop_rm] at hσ2
        obtain ⟨ρ, hρ⟩ : ∃ ρ, ρ = F.exec M σ1 (Var.cons, G.bcast j) := ⟨_, rfl⟩
        rw [← hρ] at hσ2
        have hρc : ∀ t, ρ .cons t = σ (.y (t % G.pw) j) 0 := by
          intro t; rw [hρ]
          show F.evalEx M σ1 (G.bcast j) t = _
          rw [bcast_val, ha2 _ (y_not_acc _ _ _ _ _)]
        have hρv : ∀ v, v ≠ .cons → ρ v = σ1 v := by intro v hv; rw [hρ]; exact if_neg hv
        have ⟨c1, c2⟩ := accum_spec (F := F) M (accVar expand j 0) hs0c ((List.range (G.maxRW - 1)).map (fun i => accVar expand j (1 + i))) ρ
          (by intro v hv; rw [List.mem_map] at hv; obtain ⟨i, _, rfl⟩ := hv; intro he; have := (accVar_inj.mp he).2; omega)
        rw [← hσ2] at c1 c2
        refine ⟨?_, fun v hc hv => by rw [c2 v hv, hρv v hc]⟩
        intro t
        rw [c1 t, List.foldl_map, List.range'_eq_map_range, List.foldl_map, hρv _ hs0c]
        refine List.foldl_ext _ _ _ (fun C i _ => ?_)
        rw [hρc, hρv _ (cons_not_acc _ _ _).symm, ha2 _ (by intro he; have := (accVar_inj.mp he).2; omega)]
      · rw [if_neg h] at hσ2
        have e : G.maxRW - 1 = 0 := by omega
        rw [e, hσ2]
        exact ⟨fun _ => rfl, fun _ _ _ => rfl⟩
    obtain ⟨hb1, hb2⟩ := hb
    clear hσ2
    have ⟨h1, h2⟩ := run_rm (F := F) M σ2 (fun k => .y k j)
      (fun k => (List.range' 1 (G.tsz - 1)).foldl (fun a i => .add a (.lane (accVar expand j 0) (G.pw * i + k))) (.lane (accVar expand j 0) k)) G.pw
      (by intro i i' h _ he; simp at he; omega)
      (by
        intro i i' _ _ he
        have := lanes_vars (accVar expand j 0) (fun i => G.pw * i + i') _ _ (by simp [Ex.vars]) _ he
        exact y_not_acc _ _ _ _ _ this)
    refine ⟨?_, ?_⟩
    · intro k hk t
      rw [h1 k hk, lanes_eval M σ2 (accVar expand j 0) (fun i => G.pw * i + k), htsz]
      show (List.range' 1 (G.T.ts - 1)).foldl _ (σ2 (accVar expand j 0) k) = _
      have hlane : ∀ i, i < G.T.ts → ∀ r, laneVal G expand σ j k (r * G.T.ts + i) = σ (accVar expand j r) (i * G.pw + k) := by
        intro i hi r
        unfold laneVal
        have e : (r * G.T.ts + i) * G.pw + k = (i * G.pw + k) + r * G.base := by rw [hbase]; ring
        have hlt : i * G.pw + k < G.base := by
          have : (i + 1) * G.pw ≤ G.T.ts * G.pw := Nat.mul_le_mul_right _ hi
          rw [Nat.succ_mul] at this; rw [hbase]; omega
        rw [e, Nat.add_mul_div_right _ _ hbp, Nat.div_eq_of_lt hlt, Nat.zero_add, Nat.add_mul_mod_self_right, Nat.mod_eq_of_lt hlt]
      have hmod : ∀ i, (i * G.pw + k) % G.pw = k := by
        intro i; rw [Nat.add_comm, Nat.add_mul_mod_self_right, Nat.mod_eq_of_lt hk]
      by_cases h : G.cplx = true ∧ G.T.ts = 1
      · rw [if_neg (by rintro ⟨_, h'⟩; exact h' h), h.2]
        show σ2 (accVar expand j 0) k = _
        rw [hb1, ha1, if_pos h]
        unfold consSISD
        have e : G.e * G.T.pipe = G.maxRW := by rw [hNm, h.2, Nat.mul_one]
        have hl : ∀ r, laneVal G expand σ j k r = σ (accVar expand j r) k := by
          intro r
          have := hlane 0 hts0 r
          rw [h.2, Nat.mul_one, Nat.add_zero, Nat.zero_mul, Nat.zero_add] at this
          exact this
        rw [e, hl 0]
        refine List.foldl_ext _ _ _ (fun C r _ => ?_)
        have := hmod 0
        rw [Nat.zero_mul, Nat.zero_add] at this
        rw [hl, this]
      · rw [if_pos ⟨hs, h⟩]
        unfold consSIMD
        dsimp only
        have e : G.e * G.T.pipe / G.T.ts = G.maxRW := by rw [hNm, Nat.mul_div_cancel _ hts0]
        rw [e]
        have hreg : ∀ i, i < G.T.ts → σ2 (accVar expand j 0) (G.pw * i + k) =
            (List.range' 1 (G.maxRW - 1)).foldl (fun a r => F.add a (F.sub (laneVal G expand σ j k (r * G.T.ts + i)) (σ (.y k j) 0)))
              (F.sub (laneVal G expand σ j k i) (if i = 0 then zero else σ (.y k j) 0)) := by
          intro i hi
          rw [Nat.mul_comm G.pw i, hb1, ha1, if_neg h, hmod]
          have := hlane i hi 0
          rw [Nat.zero_mul, Nat.zero_add] at this
          rw [this]
          have hc : (if i * G.pw + k < G.pw then zero else σ (.y k j) 0) = (if i = 0 then zero else σ (.y k j) 0) := by
            by_cases hi0 : i = 0
            · subst hi0; rw [if_pos (by omega), if_pos rfl]
            · have : 1 * G.pw ≤ i * G.pw := Nat.mul_le_mul_right _ (by omega)
              rw [if_neg (by omega), if_neg hi0]
          rw [hc]
          refine List.foldl_ext _ _ _ (fun C r _ => ?_)
          rw [hlane i hi r]
        have h0 := hreg 0 hts0
        rw [Nat.mul_zero, Nat.zero_add] at h0
        rw [h0]
        refine List.foldl_ext _ _ _ (fun C i hi => ?_)
        have hi := List.mem_range'_1.mp hi
        rw [hreg i (by omega)]
    · intro v hvc hva hvy
      rw [h2 v (fun k _ => hvy k), hb2 v hvc (hva 0), ha2 v (hva 0)]
  · rw [if_neg hs]
    have hb : G.base = 1 := by unfold Gen.base; rw [if_neg hs]
    have hcond : ¬ (G.T.simd = true ∧ ¬ (G.cplx = true ∧ G.T.ts = 1)) := fun h => hs h.1
    rw [hb, Nat.mul_one] at hN
    have hlv : ∀ k L, laneVal G expand σ j k L = σ (accVar expand j (L * G.pw + k)) 0 := by
      intro k L; unfold laneVal; rw [hb, Nat.div_one, Nat.mod_one]
    rcases G.pw_cases with ⟨hc, hpw⟩ | ⟨hc, hpw⟩
    · rw [if_neg (by simp [hc]), run_append, run_append]
      obtain ⟨σ1, hσ1⟩ : ∃ σ1, σ1 = F.run M (if 1 < G.maxRW then [(Var.cons, Ex.lane (.y 0 j) 0)] else []) σ := ⟨_, rfl⟩
      rw [← hσ1]
      have h1c : 1 < G.maxRW → ∀ t, σ1 .cons t = σ (.y 0 j) 0 := by
        intro h t; rw [hσ1, if_pos h]; rfl
      have h1v : ∀ v, v ≠ .cons → σ1 v = σ v := by
        intro v hv; rw [hσ1]; split
        · exact if_neg hv
        · rfl
      clear hσ1
      rw [drop_rm]
      have ⟨c1, c2⟩ := accum_spec (F := F) M (accVar expand j 0) hs0c ((List.range (G.maxRW - 1)).map (fun i => accVar expand j (1 + i))) σ1
          (by intro v hv; rw [List.mem_map] at hv; obtain ⟨i, _, rfl⟩ := hv; intro he; have := (accVar_inj.mp he).2; omega)
      generalize F.run M (((List.range (G.maxRW - 1)).map (fun i => accVar expand j (1 + i))).map (Gen.accumInto (accVar expand j 0))) σ1 = σ2 at *
      refine ⟨?_, ?_⟩
      · intro k hk t
        rw [hpw] at hk
        obtain rfl : k = 0 := by omega
        rw [if_neg hcond]
        show (if Var.y 0 j = Var.y 0 j then F.evalEx M σ2 (.lane (accVar expand j 0) 0) else _) t = _
        rw [if_pos rfl]
        show σ2 (accVar expand j 0) 0 = _
        rw [c1 0, List.foldl_map]
        unfold consSISD
        rw [hpw, Nat.mul_one] at hN
        rw [← hN, List.range'_eq_map_range, List.foldl_map, hlv, h1v _ hs0c, hpw]
        refine List.foldl_ext _ _ _ (fun C i hi => ?_)
        have := List.mem_range.mp hi
        rw [hlv, h1c (by omega), h1v _ (cons_not_acc _ _ _).symm, hpw, Nat.mul_one, Nat.add_zero]
      · intro v hvc hva hvy
        show (if v = Var.y 0 j then _ else σ2 v) = _
        rw [if_neg (hvy 0), c2 v (hva 0), h1v v hvc]
    · rw [if_pos hc]
      rw [hpw] at hN
      have hm2 : 2 ≤ G.maxRW := by omega
      have hg1 : ((List.range G.maxRW).map (accVar expand j)).getD 1 default = accVar expand j 1 := getD_rm _ _ (by omega)
      rw [hg1, drop_rm, drop_rm, stride2_rm, stride2_rm, run_append, run_append, run_append, run_append]
      have hs1c : accVar expand j 1 ≠ Var.cons := (cons_not_acc _ _ _).symm
      obtain ⟨σ1, hσ1⟩ : ∃ σ1, σ1 = F.run M (if 2 < G.maxRW then [(Var.cons, Ex.lane (.y 0 j) 0)] else []) σ := ⟨_, rfl⟩
      rw [← hσ1]
      have h1c : 2 < G.maxRW → ∀ t, σ1 .cons t = σ (.y 0 j) 0 := by
        intro h t; rw [hσ1, if_pos h]; rfl
      have h1v : ∀ v, v ≠ .cons → σ1 v = σ v := by
        intro v hv; rw [hσ1]; split
        · exact if_neg hv
        · rfl
      clear hσ1
      have ⟨c1, c2⟩ := accum_spec (F := F) M (accVar expand j 0) hs0c ((List.range ((G.maxRW - 2 + 1) / 2)).map (fun i => accVar expand j (2 + 2 * i))) σ1
          (by intro v hv; rw [List.mem_map] at hv; obtain ⟨i, _, rfl⟩ := hv; intro he; have := (accVar_inj.mp he).2; omega)
      generalize F.run M (((List.range ((G.maxRW - 2 + 1) / 2)).map (fun i => accVar expand j (2 + 2 * i))).map (Gen.accumInto (accVar expand j 0))) σ1 = σ2 at *
      obtain ⟨σ3, hσ3⟩ : ∃ σ3, σ3 = F.run M (if 2 < G.maxRW then [(Var.cons, Ex.lane (.y 1 j) 0)] else []) σ2 := ⟨_, rfl⟩
      rw [← hσ3]
      have h3c : 2 < G.maxRW → ∀ t, σ3 .cons t = σ (.y 1 j) 0 := by
        intro h t; rw [hσ3, if_pos h]
        show σ2 (.y 1 j) 0 = _
        rw [c2 _ (y_not_acc _ _ _ _ _), h1v _ (by simp)]
      have h3v : ∀ v, v ≠ .cons → σ3 v = σ2 v := by
        intro v hv; rw [hσ3]; split
        · exact if_neg hv
        · rfl
      clear hσ3
      have ⟨c3, c4⟩ := accum_spec (F := F) M (accVar expand j 1) hs1c ((List.range ((G.maxRW - 3 + 1) / 2)).map (fun i => accVar expand j (3 + 2 * i))) σ3
          (by intro v hv; rw [List.mem_map] at hv; obtain ⟨i, _, rfl⟩ := hv; intro he; have := (accVar_inj.mp he).2; omega)
      generalize F.run M (((List.range ((G.maxRW - 3 + 1) / 2)).map (fun i => accVar expand j (3 + 2 * i))).map (Gen.accumInto (accVar expand j 1))) σ3 = σ4 at *
      obtain ⟨N, hNN⟩ : ∃ N, N = G.e * G.T.pipe := ⟨_, rfl⟩
      rw [← hNN] at hN ⊢
      have e1 : (G.maxRW - 2 + 1) / 2 = N - 1 := by omega
      have e2 : (G.maxRW - 3 + 1) / 2 = N - 1 := by omega
      have hfin : ∀ (v : Var), F.run M [(.y 0 j, Ex.lane (accVar expand j 0) 0), (.y 1 j, Ex.lane (accVar expand j 1) 0)] σ4 v
          = if v = .y 1 j then (fun _ => σ4 (accVar expand j 1) 0) else if v = .y 0 j then (fun _ => σ4 (accVar expand j 0) 0) else σ4 v := by
        intro v
        rw [run_cons, run_cons, run_nil]
        unfold exec
        dsimp only
        by_cases hv : v = .y 1 j
        · rw [if_pos hv, if_pos hv]; funext t; simp only [evalEx]; rw [if_neg (y_not_acc _ _ _ _ _).symm]
        · rw [if_neg hv, if_neg hv]
          by_cases hv : v = .y 0 j
          · rw [if_pos hv, if_pos hv]; funext t; rfl
          · rw [if_neg hv, if_neg hv]
      refine ⟨?_, ?_⟩
      · intro k hk t
        rw [hfin, if_neg hcond]
        unfold consSISD
        rw [hpw] at hk
        have hk : k = 0 ∨ k = 1 := by omega
        rcases hk with rfl | rfl
        · rw [if_neg (by simp), if_pos rfl]
          rw [c4 _ (by intro he; have := (accVar_inj.mp he).2; omega), h3v _ hs0c, c1 0, List.foldl_map, e1,
            List.range'_eq_map_range, List.foldl_map, h1v _ hs0c, hlv, hpw]
          refine List.foldl_ext _ _ _ (fun C i hi => ?_)
          have := List.mem_range.mp hi
          rw [hlv, h1c (by omega), h1v _ (cons_not_acc _ _ _).symm, hpw, show (1 + i) * 2 + 0 = 2 + 2 * i from by omega]
        · rw [if_pos rfl]
          rw [c3 0, List.foldl_map, e2, List.range'_eq_map_range, List.foldl_map, h3v _ hs1c,
            c2 _ (by intro he; have := (accVar_inj.mp he).2; omega), h1v _ hs1c, hlv, hpw]
          refine List.foldl_ext _ _ _ (fun C i hi => ?_)
          have := List.mem_range.mp hi
          rw [hlv, h3c (by omega), h3v _ (cons_not_acc _ _ _).symm, c2 _ (by intro he; have := (accVar_inj.mp he).2; omega),
            h1v _ (cons_not_acc _ _ _).symm, hpw, show (1 + i) * 2 + 1 = 3 + 2 * i from by omega]
      · intro v hvc hva hvy
        rw [hfin, if_neg (hvy 1), if_neg (hvy 0), c4 v (hva 1), h3v v hvc, c2 v (hva 0), h1v v hvc]

/-- `consolidate_into` for all levels. -/
theorem Gen.consolidates_spec {G : Gen} (hT : G.T.OK F) (M : Nat → Int → Flt) (expand : Bool) (σ : Regs) : ∀ fold,
    (∀ k, k < G.pw → ∀ j, j < fold → ∀ t, F.run M ((List.range fold).flatMap (fun j => G.consolidate j (G.accv expand j))) σ (.y k j) t =
        if G.T.simd = true ∧ ¬ (G.cplx = true ∧ G.T.ts = 1) then F.consSIMD G.T.ts (G.e * G.T.pipe) (laneVal G expand σ j k) (σ (.y k j) 0)
        else F.consSISD (G.e * G.T.pipe) (laneVal G expand σ j k) (σ (.y k j) 0))
      ∧ (∀ v, v ≠ .cons → (∀ j r, j < fold → v ≠ accVar expand j r) → (∀ k j, j < fold → v ≠ .y k j) →
        F.run M ((List.range fold).flatMap (fun j => G.consolidate j (G.accv expand j))) σ v = σ v) := by
  intro fold
  induction fold with
  | zero => exact ⟨fun k _ j hj => absurd hj (Nat.not_lt_zero j), fun _ _ _ _ => rfl⟩
  | succ fold ih =>
    have hrun : F.run M ((List.range (fold + 1)).flatMap (fun j => G.consolidate j (G.accv expand j))) σ
        = F.run M (G.consolidate fold (G.accv expand fold)) (F.run M ((List.range fold).flatMap (fun j => G.consolidate j (G.accv expand j))) σ) := by
      rw [List.range_succ, List.flatMap_append, run_append]; simp
    rw [hrun]
    generalize F.run M ((List.range fold).flatMap (fun j => G.consolidate j (G.accv expand j))) σ = τ at *
    obtain ⟨i1, i2⟩ := ih
    have ⟨h1, h2⟩ := G.consolidate_spec hT M expand fold τ
    refine ⟨?_, ?_⟩
    · intro k hk j hj t
      by_cases hjf : j = fold
      · subst hjf
        have hl : laneVal G expand τ j k = laneVal G expand σ j k := by
          funext L; unfold laneVal
          rw [i2 _ (cons_not_acc _ _ _).symm (fun j' r' hj' he => by have := (accVar_inj.mp he).1; omega) (fun k j' _ => (y_not_acc _ _ _ _ _).symm)]
        rw [h1 k hk t, hl, i2 _ (by simp) (fun j' r' _ => y_not_acc _ _ _ _ _) (fun k' j' hj' he => by have := (Var.y.inj he).2; omega)]
      · rw [h2 _ (by simp) (fun r => y_not_acc _ _ _ _ _) (fun k' he => hjf (Var.y.inj he).2), i1 k hk j (by omega) t]
    · intro v hc ha hy
      rw [h2 v hc (fun r => ha _ r (by omega)) (fun k => hy k _ (by omega)), i2 v hc (fun j r hj => ha j r (by omega)) (fun k j hj => hy k j (by omega))]

end Repro
