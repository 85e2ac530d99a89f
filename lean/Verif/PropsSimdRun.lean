import Verif.PropsSimd
/-!
# C65: executing the generated statements on bits simulates executing them on lanes
-/

namespace Repro
open Fmt

variable {F : Fmt}

/-- What the variables of the machine mean to the lane model. -/
def Fmt.decRegs (F : Fmt) (isa : Isa) (σ : IRegs isa.bits F.width) : Regs :=
  fun v t => if v.scalar then F.dec (σ.sc v) else F.dec (lane F.width t (σ.vec v))

/-- Two states agree: on the lanes of the register, and on the words. -/
def Sim (F : Fmt) (isa : Isa) (σI : IRegs isa.bits F.width) (σ : Regs) : Prop :=
  (∀ v, v.scalar = false → ∀ t, t < isa.lanes F → σ v t = F.dec (lane F.width t (σI.vec v)))
    ∧ ∀ v, v.scalar = true → σ v 0 = F.dec (σI.sc v)

theorem sim_dec (isa : Isa) (σI : IRegs isa.bits F.width) : Sim F isa σI (F.decRegs isa σI) := by
  refine ⟨fun v hv t _ => ?_, fun v hv => ?_⟩
  · unfold decRegs
    rw [hv]
    rfl
  · unfold decRegs
    rw [hv]
    rfl

/-- Expressions that are single numbers. -/
def Ex.S (F : Fmt) (L : Nat) : Ex → Prop
  | .lane v i => if v.scalar then i = 0 else i < L
  | .cst c => F.Bits c
  | .add a b => a.S F L ∧ b.S F L
  | .max a b => a.S F L ∧ b.S F L
  | _ => False

/-- Expressions that are vectors. -/
def Ex.V (F : Fmt) (L : Nat) : Ex → Prop
  | .var v => v.scalar = false
  | .lane v i => (Ex.lane v i).S F L
  | .cst c => F.Bits c
  | .ri a b => a.S F L ∧ b.S F L
  | .first _ a b => a.S F L ∧ match b with
      | .ri c d => c.S F L ∧ d.S F L
      | b => b.S F L
  | .add a b => a.V F L ∧ b.V F L
  | .sub a b => a.V F L ∧ b.V F L
  | .mul a b => a.V F L ∧ b.V F L
  | .max a b => a.V F L ∧ b.V F L
  | .or1 a => a.V F L
  | .abs a => a.V F L
  | .swap a => a.V F L
  | .evens a => a.V F L
  | .odds a => a.V F L
  | .flipE a => a.V F L
  | .flipO a => a.V F L
  | .ld _ _ => True

section
variable [F.OK] {isa : Isa} {σI : IRegs isa.bits F.width} {σ : Regs} (hs : Sim F isa σI σ) (M : Nat → Int → BitVec F.width)
include hs

theorem evalS_spec (t : Nat) : ∀ e : Ex, e.S F (isa.lanes F) → F.evalEx (fun p a => F.dec (M p a)) σ e t = F.dec (F.evalS isa σI e)
  | .lane v i, h => by
    unfold Ex.S at h
    unfold evalEx evalS
    by_cases hv : v.scalar = true
    · rw [if_pos hv] at h ⊢
      subst h
      exact hs.2 v hv
    · rw [if_neg hv] at h ⊢
      exact hs.1 v (by simpa using hv) i h
  | .cst c, h => by
    unfold evalEx evalS
    rw [dec_enc h]
  | .add a b, h => by
    unfold evalEx evalS
    rw [dec_enc (add_bits (dec_bits _) (dec_bits _)), evalS_spec t a h.1, evalS_spec t b h.2]
  | .max a b, h => by
    unfold evalEx evalS
    rw [dec_max, evalS_spec t a h.1, evalS_spec t b h.2]

theorem evalI_spec : ∀ (e : Ex), e.V F (isa.lanes F) → ∀ t, t < isa.lanes F →
    F.evalEx (fun p a => F.dec (M p a)) σ e t = F.dec (lane F.width t (F.evalI isa M σI e))
  | .var v, h, t, ht => hs.1 v h t ht
  | .lane v i, h, t, ht => by
    rw [evalS_spec hs M t _ h]
    unfold evalI mmSet1
    rw [lane_vpack _ (lane_in ht)]
  | .cst c, h, t, ht => by
    unfold evalEx evalI mmSet1
    rw [lane_vpack _ (lane_in ht), dec_enc h]
  | .ri a b, h, t, ht => by
    unfold evalEx evalI
    rw [lane_set (lane_in ht), alt_reverse _ _ _ (show isa.bits / F.width % 2 = 0 from (lanes_even isa).1) ht,
      evalS_spec hs M t _ h.1, evalS_spec hs M t _ h.2]
    split <;> rfl
  | .first k a b, h, t, ht => by
    unfold evalEx evalI
    rw [lane_vpack _ (lane_in ht), evalS_spec hs M t _ h.1]
    by_cases hk : t < k
    · rw [if_pos hk, if_pos hk]
    · rw [if_neg hk, if_neg hk]
      have h2 := h.2
      cases b with
      | ri c d =>
        dsimp only at h2 ⊢
        unfold evalEx
        rw [evalS_spec hs M t _ h2.1, evalS_spec hs M t _ h2.2]
        split <;> rfl
      | _ => exact evalS_spec hs M t _ h2
  | .add a b, h, t, ht => by
    unfold evalEx evalI mmMap2
    rw [lane_vpack _ (lane_in ht), dec_enc (add_bits (dec_bits _) (dec_bits _)), evalI_spec a h.1 t ht, evalI_spec b h.2 t ht]
  | .sub a b, h, t, ht => by
    unfold evalEx evalI mmMap2
    rw [lane_vpack _ (lane_in ht), dec_enc (sub_bits (dec_bits _) (dec_bits _)), evalI_spec a h.1 t ht, evalI_spec b h.2 t ht]
  | .mul a b, h, t, ht => by
    unfold evalEx evalI mmMap2
    rw [lane_vpack _ (lane_in ht), dec_enc (mul_bits _ _), evalI_spec a h.1 t ht, evalI_spec b h.2 t ht]
  | .max a b, h, t, ht => by
    unfold evalEx evalI mmMax
    rw [lane_vpack _ (lane_in ht), dec_max, evalI_spec a h.1 t ht, evalI_spec b h.2 t ht]
  | .or1 a, h, t, ht => by
    unfold evalEx evalI
    rw [lane_or, lane_blp (lane_in ht), dec_or1, evalI_spec a h t ht]
  | .abs a, h, t, ht => by
    unfold evalEx evalI
    rw [lane_and, lane_abs (lane_in ht), dec_abs, evalI_spec a h t ht]
  | .swap a, h, t, ht => by
    have := (lanes_even (F := F) isa).1
    unfold evalEx evalI
    rw [lane_swap ht, evalI_spec a h _ (by omega)]
  | .evens a, h, t, ht => by
    unfold evalEx evalI
    rw [lane_evens ht, evalI_spec a h _ (by omega)]
  | .odds a, h, t, ht => by
    have := (lanes_even (F := F) isa).1
    unfold evalEx evalI
    rw [lane_odds ht, evalI_spec a h _ (by omega)]
  | .flipE a, h, t, ht => by
    unfold evalEx evalI
    rw [lane_xor, lane_nconj ht, evalI_spec a h t ht]
    split
    · rw [dec_neg]
    · exact congrArg F.dec BitVec.xor_zero.symm
  | .flipO a, h, t, ht => by
    unfold evalEx evalI
    rw [lane_xor, lane_conj ht, evalI_spec a h t ht]
    split
    · exact congrArg F.dec BitVec.xor_zero.symm
    · rw [dec_neg]
  | .ld p l, h, t, ht => by
    unfold evalEx evalI
    rw [lane_vpack _ (lane_in ht)]
    generalize l.getD t none = o
    cases o
    · exact dec_zero.symm
    · rfl

/-- A statement the vector code may contain. -/
def StmtOk (F : Fmt) (L : Nat) (c : Var × Ex) : Prop := if c.1.scalar then c.2.S F L else c.2.V F L

theorem exec_sim {c : Var × Ex} (h : StmtOk F (isa.lanes F) c) : Sim F isa (F.execI isa M σI c) (F.exec (fun p a => F.dec (M p a)) σ c) := by
  unfold StmtOk at h
  unfold execI exec
  by_cases hc : c.1.scalar = true
  · rw [if_pos hc] at h ⊢
    refine ⟨fun v hv t ht => ?_, fun v hv => ?_⟩
    · dsimp only
      rw [if_neg (fun e => by rw [e, hc] at hv; cases hv)]
      exact hs.1 v hv t ht
    · dsimp only
      by_cases e : v = c.1
      · rw [if_pos e, if_pos e]
        exact evalS_spec hs M 0 _ h
      · rw [if_neg e, if_neg e]
        exact hs.2 v hv
  · rw [if_neg hc] at h ⊢
    refine ⟨fun v hv t ht => ?_, fun v hv => ?_⟩
    · dsimp only
      by_cases e : v = c.1
      · rw [if_pos e, if_pos e]
        exact evalI_spec hs M _ h t ht
      · rw [if_neg e, if_neg e]
        exact hs.1 v hv t ht
    · dsimp only
      rw [if_neg (fun e => hc (by rw [← e]; exact hv))]
      exact hs.2 v hv

end

theorem run_sim [F.OK] {isa : Isa} (M : Nat → Int → BitVec F.width) : ∀ (c : Code) {σI : IRegs isa.bits F.width} {σ : Regs}, Sim F isa σI σ →
    (∀ s ∈ c, StmtOk F (isa.lanes F) s) → Sim F isa (F.runI isa M c σI) (F.run (fun p a => F.dec (M p a)) c σ)
  | [], _, _, hs, _ => hs
  | s :: c, _, _, hs, h => run_sim M c (exec_sim hs M (h s List.mem_cons_self)) (fun s' hs' => h s' (List.mem_cons_of_mem _ hs'))

end Repro
