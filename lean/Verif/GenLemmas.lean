import Verif.Gen
import Verif.KernelLemmas
/-!
# Executing lists of assignments
-/

namespace Repro

/-! ### lists indexed by ranges -/

theorem drop_rm {α : Type} (f : Nat → α) (k n : Nat) :
    ((List.range n).map f).drop k = (List.range (n - k)).map (fun i => f (k + i)) := by
  apply List.ext_getElem
  · simp
  · intro i h1 h2; simp

theorem take_rm {α : Type} (f : Nat → α) (k n : Nat) :
    ((List.range n).map f).take k = (List.range (min k n)).map f := by
  apply List.ext_getElem
  · simp
  · intro i h1 h2; simp

theorem zip_rm {α β γ : Type} (g : α → β → γ) (a : Nat → α) (c : Nat → β) (n m : Nat) :
    List.zipWith g ((List.range n).map a) ((List.range m).map c) = (List.range (min n m)).map (fun i => g (a i) (c i)) := by
  apply List.ext_getElem
  · simp
  · intro i h1 h2; simp

theorem getD_rm {α : Type} (f : Nat → α) {i n : Nat} (d : α) (h : i < n) : ((List.range n).map f).getD i d = f i := by
  rw [List.getD_eq_getElem?_getD, List.getElem?_map, List.getElem?_range h]; rfl

theorem ev_rm (f : Nat → Var) (n : Nat) : ev ((List.range n).map f) = (List.range n).map (fun i => .var (f i)) := by
  unfold ev; rw [List.map_map]; rfl

theorem cycleTo_rm {α : Type} [Inhabited α] (f : Nat → α) {k : Nat} (hk : 0 < k) (n : Nat) :
    cycleTo ((List.range k).map f) n = (List.range n).map (fun i => f (i % k)) := by
  unfold cycleTo
  apply List.map_congr_left
  intro i _
  rw [List.length_map, List.length_range, getD_rm _ _ (Nat.mod_lt _ hk)]

theorem setEqual_rm (d : Nat → Var) (e : Nat → Ex) (n m : Nat) :
    setEqual ((List.range n).map d) ((List.range m).map e) = (List.range (min n m)).map (fun i => (d i, e i)) := zip_rm _ _ _ _ _

theorem vadd_rm (a c : Nat → Ex) (n m : Nat) :
    vadd ((List.range n).map a) ((List.range m).map c) = (List.range (min n m)).map (fun i => .add (a i) (c i)) := zip_rm _ _ _ _ _

theorem vsub_rm (a c : Nat → Ex) (n m : Nat) :
    vsub ((List.range n).map a) ((List.range m).map c) = (List.range (min n m)).map (fun i => .sub (a i) (c i)) := zip_rm _ _ _ _ _

theorem vmul_rm (a c : Nat → Ex) (n m : Nat) :
    vmul ((List.range n).map a) ((List.range m).map c) = (List.range (min n m)).map (fun i => .mul (a i) (c i)) := zip_rm _ _ _ _ _

theorem vmulC_rm (a : Nat → Ex) (c : Nat → Var) (n : Nat) {k : Nat} (hk : 0 < k) :
    vmulC ((List.range n).map a) ((List.range k).map c) = (List.range n).map (fun i => .mul (a i) (.var (c (i % k)))) := by
  unfold vmulC
  rw [ev_rm, cycleTo_rm _ hk, vmul_rm, List.length_map, List.length_range, Nat.min_self]

theorem addBlp_rm (d s : Nat → Var) (e : Nat → Ex) {n m l w : Nat} (hn : w ≤ n) (hm : w ≤ m) (hl : w ≤ l) :
    addBlp ((List.range n).map d) ((List.range m).map s) ((List.range l).map e) w
      = (List.range w).map (fun i => (d i, .add (.var (s i)) (.or1 (e i)))) := by
  unfold addBlp
  apply List.map_congr_left
  intro i hi
  have hi := List.mem_range.mp hi
  rw [getD_rm _ _ (by omega), getD_rm _ _ (by omega), getD_rm _ _ (by omega)]

theorem stride2_rm {α : Type} : ∀ (n : Nat) (f : Nat → α), stride2 ((List.range n).map f) = (List.range ((n + 1) / 2)).map (fun i => f (2 * i))
  | 0, _ => rfl
  | 1, _ => rfl
  | n + 2, f => by
    have h1 : (List.range (n + 2)).map f = f 0 :: f 1 :: (List.range n).map (fun i => f (i + 2)) := by
      rw [List.range_succ_eq_map, List.map_cons, List.range_succ_eq_map]
      simp [Function.comp_def]
    rw [h1, stride2, stride2_rm n, show (n + 2 + 1) / 2 = (n + 1) / 2 + 1 from by omega, List.range_succ_eq_map, List.map_cons, List.map_map]
    congr 1

theorem dbl_rm {α : Type} (f : Nat → α) : ∀ n, ((List.range n).map f).flatMap (fun a => [a, a]) = (List.range (2 * n)).map (fun i => f (i / 2)) := by
  intro n
  induction n with
  | zero => rfl
  | succ n ih =>
    rw [List.range_succ, List.map_append, List.flatMap_append, ih, show 2 * (n + 1) = 2 * n + 1 + 1 from by omega,
      List.range_succ, List.range_succ, List.append_assoc, List.map_append, List.map_append]
    have h1 : (2 * n) / 2 = n := by omega
    have h2 : (2 * n + 1) / 2 = n := by omega
    simp [h1, h2]

/-! ### execution -/

/-- The variables an expression reads. -/
def Ex.vars : Ex → List Var
  | .var v => [v]
  | .lane v _ => [v]
  | .cst _ => []
  | .ri a b => a.vars ++ b.vars
  | .first _ a b => a.vars ++ b.vars
  | .add a b => a.vars ++ b.vars
  | .sub a b => a.vars ++ b.vars
  | .mul a b => a.vars ++ b.vars
  | .max a b => a.vars ++ b.vars
  | .or1 a => a.vars
  | .abs a => a.vars
  | .swap a => a.vars
  | .evens a => a.vars
  | .odds a => a.vars
  | .flipE a => a.vars
  | .flipO a => a.vars
  | .ld _ _ => []

namespace Fmt
variable {F : Fmt}

theorem evalEx_congr (M : Nat → Int → Flt) {σ τ : Regs} : ∀ (e : Ex), (∀ v ∈ e.vars, σ v = τ v) → F.evalEx M σ e = F.evalEx M τ e := by
  intro e
  induction e with
  | var v => intro h; funext t; simp [evalEx, h v (by simp [Ex.vars])]
  | lane v i => intro h; funext t; simp [evalEx, h v (by simp [Ex.vars])]
  | cst c => intro _; rfl
  | ld p l => intro _; rfl
  | ri a b iha ihb | first _ a b iha ihb | add a b iha ihb | sub a b iha ihb | mul a b iha ihb | max a b iha ihb =>
    intro h
    have h1 := iha (fun v hv => h v (by simp [Ex.vars, hv]))
    have h2 := ihb (fun v hv => h v (by simp [Ex.vars, hv]))
    funext t; simp [evalEx, h1, h2]
  | or1 a ih | abs a ih | swap a ih | evens a ih | odds a ih | flipE a ih | flipO a ih =>
    intro h
    have h1 := ih h
    funext t; simp [evalEx, h1]

theorem run_append (M : Nat → Int → Flt) (a b : Code) (σ : Regs) : F.run M (a ++ b) σ = F.run M b (F.run M a σ) := List.foldl_append

theorem run_nil (M : Nat → Int → Flt) (σ : Regs) : F.run M [] σ = σ := rfl

theorem run_cons (M : Nat → Int → Flt) (c : Var × Ex) (a : Code) (σ : Regs) : F.run M (c :: a) σ = F.run M a (F.exec M σ c) := rfl

/-- A list of assignments to different variables, none of which is read by a later one. -/
theorem run_rm (M : Nat → Int → Flt) (σ : Regs) (d : Nat → Var) (e : Nat → Ex) : ∀ (n : Nat),
    (∀ i i', i < i' → i' < n → d i ≠ d i') → (∀ i i', i < i' → i' < n → d i ∉ (e i').vars) →
    (∀ i, i < n → F.run M ((List.range n).map (fun i => (d i, e i))) σ (d i) = F.evalEx M σ (e i))
      ∧ (∀ v, (∀ i, i < n → v ≠ d i) → F.run M ((List.range n).map (fun i => (d i, e i))) σ v = σ v) := by
  intro n
  induction n with
  | zero => intro _ _; exact ⟨fun i hi => absurd hi (Nat.not_lt_zero i), fun v _ => rfl⟩
  | succ n ih =>
    intro hd hr
    have ⟨h1, h2⟩ := ih (fun i i' h h' => hd i i' h (by omega)) (fun i i' h h' => hr i i' h (by omega))
    have hrun : F.run M ((List.range (n + 1)).map (fun i => (d i, e i))) σ
        = F.exec M (F.run M ((List.range n).map (fun i => (d i, e i))) σ) (d n, e n) := by
      rw [List.range_succ, List.map_append, run_append]; rfl
    rw [hrun]
    constructor
    · intro i hi
      unfold exec
      by_cases hin : i = n
      · subst hin
        rw [if_pos rfl]
        exact evalEx_congr M _ (fun v hv => h2 v (fun k hk hvk => hr k i hk (by omega) (hvk ▸ hv)))
      · rw [if_neg (hd i n (by omega) (by omega))]
        exact h1 i (by omega)
    · intro v hv
      unfold exec
      rw [if_neg (hv n (by omega))]
      exact h2 v (fun i hi => hv i (by omega))

end Fmt
end Repro
