import Verif.GenGroup
import Verif.ZLemmas
import Mathlib.Tactic.Ring
import Mathlib.Tactic.LinearCombination
/-!
# What the generated `preprocess` statements load
-/

namespace Repro
open Fmt
variable {F : Fmt}

/-- The kernels the library generates: `dot` for real, `dotu` and `dotc` for complex data. -/
def Gen.Fits (G : Gen) : Prop := match G.op with
  | .dot => G.cplx = false
  | .dotu | .dotc => G.cplx = true
  | _ => True

/-- The number `h` for part `k` computed from the elements `a = (x, z)`. -/
def opF (F : Fmt) (T : Tune) : DepOp → Nat → (Flt × Flt) × (Flt × Flt) → Nat → Flt
  | .sum, k, a, _ => if k = 0 then a.1.1 else a.1.2
  | .asum, k, a, _ => fabs (if k = 0 then a.1.1 else a.1.2)
  | .ssq inv, k, a, _ => F.mul (F.mul (if k = 0 then a.1.1 else a.1.2) inv) (F.mul (if k = 0 then a.1.1 else a.1.2) inv)
  | .dot, _, a, _ => F.mul a.1.1 a.2.1
  | .dotu, k, a, h => if k = 0 then (F.dotuOp T).fR a h else (F.dotuOp T).fI a h
  | .dotc, k, a, h => if k = 0 then (F.dotcOp T).fR a h else (F.dotcOp T).fI a h

namespace Gen
variable {G : Gen}

theorem pw_cases (G : Gen) : (G.cplx = false ∧ G.pw = 1) ∨ (G.cplx = true ∧ G.pw = 2) := by
  unfold Gen.pw; cases G.cplx <;> simp

theorem pw_pos (G : Gen) : 0 < G.pw := by rcases G.pw_cases with h | h <;> omega

theorem base_pos (hT : G.T.OK F) : 0 < G.base := by
  unfold Gen.base
  obtain ⟨a, ha⟩ := hT.ts
  split
  · exact Nat.mul_pos (by rw [ha]; exact Nat.two_pow_pos a) G.pw_pos
  · omega

theorem tsz_simd (h : G.T.simd = true) : G.tsz = G.T.ts := by
  unfold Gen.tsz Gen.base
  rw [if_pos h]
  exact Nat.mul_div_cancel _ G.pw_pos

theorem tsz_sisd (hT : G.T.OK F) (h : G.T.simd = false) : G.tsz ≤ 1 := by
  unfold Gen.tsz Gen.base
  rw [if_neg (by simp [h])]
  exact Nat.div_le_self _ _

theorem index_eq (inc : Int) (i : Nat) : G.index inc i = inc * (G.pw : Int) * ((i / G.pw : Nat) : Int) + ((i % G.pw : Nat) : Int) := by
  unfold Gen.index
  rcases G.pw_cases with ⟨h, hp⟩ | ⟨h, hp⟩
  · rw [if_neg (by simp [h]), hp]; simp [Nat.mod_one]
  · rw [if_pos h, hp]; ring

/-- The number of elements a chunk loads. -/
def cnt (G : Gen) (c : Chunk) : Nat := if c.part then G.T.ts else c.count

/-- The word number `B` loaded for a chunk from the array `p`. -/
def word (G : Gen) (M : Nat → Int → Flt) (incX incZ : Int) (c : Chunk) (p B : Nat) : Flt :=
  if c.part = true ∧ ¬ B / G.pw < c.count then zero
  else M p ((if p = 0 then incX else incZ) * (G.pw : Int) * ((c.off + B / G.pw : Nat) : Int) + ((B % G.pw : Nat) : Int))

end Gen

/-- The first `n` expressions of a list have the values `g`, where `g b` is the value for the number `b` in the order of
registers and lanes, and read only variables with `S`. -/
structure Sem (F : Fmt) (base : Nat) (M : Nat → Int → Flt) (σ : Regs) (L : List Ex) (n : Nat) (g : Nat → Flt) (S : Nat → Var → Prop) : Prop where
  len : n ≤ L.length
  val : ∀ i, i < n → ∀ t, t < base → F.evalEx M σ (L.getD i default) t = g (i * base + t)
  vars : ∀ i, i < n → ∀ v ∈ (L.getD i default).vars, S i v

theorem zipWith_getD {α β γ : Type} [Inhabited α] [Inhabited β] [Inhabited γ] (f : α → β → γ) (a : List α) (b : List β) {i : Nat}
    (ha : i < a.length) (hb : i < b.length) : (List.zipWith f a b).getD i default = f (a.getD i default) (b.getD i default) := by
  rw [List.getD_eq_getElem?_getD, List.getD_eq_getElem?_getD, List.getD_eq_getElem?_getD, List.getElem?_zipWith,
    List.getElem?_eq_getElem ha, List.getElem?_eq_getElem hb]
  rfl

theorem map_getD {α β : Type} [Inhabited α] [Inhabited β] (f : α → β) (a : List α) {i : Nat} (ha : i < a.length) :
    (a.map f).getD i default = f (a.getD i default) := by
  rw [List.getD_eq_getElem?_getD, List.getD_eq_getElem?_getD, List.getElem?_map, List.getElem?_eq_getElem ha]
  rfl

theorem list_rm {α : Type} [Inhabited α] (L : List α) : (List.range L.length).map (fun i => L.getD i default) = L := by
  apply List.ext_getElem
  · simp
  · intro i h1 h2
    simp only [List.getElem_map, List.getElem_range]
    rw [List.getD_eq_getElem?_getD, List.getElem?_eq_getElem h2]; rfl

section
variable {base n : Nat} {M : Nat → Int → Flt} {σ : Regs} {L L' : List Ex} {g g' : Nat → Flt} {S S' : Nat → Var → Prop}

/-- Assigning a list of expressions. -/
theorem Sem.set (h : Sem F base M σ L n g S) (d : Nat → Var) {m : Nat} (hm : min m L.length = n)
    (hd : ∀ i i', i < i' → i' < n → d i ≠ d i') (hS : ∀ i i', i < i' → i' < n → ¬ S i' (d i)) :
    (∀ i, i < n → ∀ t, t < base → F.run M (setEqual ((List.range m).map d) L) σ (d i) t = g (i * base + t))
      ∧ (∀ v, (∀ i, i < n → v ≠ d i) → F.run M (setEqual ((List.range m).map d) L) σ v = σ v) := by
  rw [← list_rm L, setEqual_rm, hm]
  have ⟨h1, h2⟩ := run_rm (F := F) M σ d (fun i => L.getD i default) n hd (fun i i' h3 h4 hv => hS i i' h3 h4 (h.vars i' h4 _ hv))
  exact ⟨fun i hi t ht => by rw [h1 i hi]; exact h.val i hi t ht, h2⟩

theorem Sem.mul (h : Sem F base M σ L n g S) (h' : Sem F base M σ L' n g' S') :
    Sem F base M σ (vmul L L') n (fun b => F.mul (g b) (g' b)) (fun i v => S i v ∨ S' i v) := by
  have hl := h.len
  have hl' := h'.len
  refine ⟨by unfold vmul; rw [List.length_zipWith]; omega, ?_, ?_⟩
  · intro i hi t ht
    unfold vmul
    rw [zipWith_getD _ _ _ (by omega) (by omega)]
    show F.mul _ _ = _
    rw [h.val i hi t ht, h'.val i hi t ht]
  · intro i hi v hv
    unfold vmul at hv
    rw [zipWith_getD _ _ _ (by omega) (by omega)] at hv
    simp only [Ex.vars, List.mem_append] at hv
    exact hv.imp (h.vars i hi v) (h'.vars i hi v)

theorem Sem.abs (h : Sem F base M σ L n g S) : Sem F base M σ (L.map .abs) n (fun b => fabs (g b)) S := by
  have hl := h.len
  refine ⟨by rw [List.length_map]; omega, ?_, ?_⟩
  · intro i hi t ht
    rw [map_getD _ _ (by omega)]
    show fabs _ = _
    rw [h.val i hi t ht]
  · intro i hi v hv
    rw [map_getD _ _ (by omega)] at hv
    exact h.vars i hi v hv

theorem Sem.ev {f : Nat → Var} {m : Nat} (hm : n ≤ m) (hg : ∀ i, i < n → ∀ t, t < base → σ (f i) t = g (i * base + t)) :
    Sem F base M σ (ev ((List.range m).map f)) n g (fun i v => v = f i) := by
  rw [ev_rm]
  refine ⟨by simpa using hm, ?_, ?_⟩
  · intro i hi t ht
    rw [getD_rm _ _ (by omega)]
    exact hg i hi t ht
  · intro i hi v hv
    rw [getD_rm _ _ (by omega)] at hv
    simpa [Ex.vars] using hv

theorem Sem.cst (c : Flt) : Sem F base M σ (List.replicate n (.cst c)) n (fun _ => c) (fun _ _ => False) := by
  refine ⟨by simp, ?_, ?_⟩
  · intro i hi t ht
    rw [List.getD_eq_getElem?_getD, List.getElem?_replicate_of_lt hi]; rfl
  · intro i hi v hv
    rw [List.getD_eq_getElem?_getD, List.getElem?_replicate_of_lt hi] at hv
    simp [Ex.vars] at hv

theorem Sem.mono (h : Sem F base M σ L n g S) (hS : ∀ i v, i < n → S i v → S' i v) : Sem F base M σ L n g S' :=
  ⟨h.len, h.val, fun i hi v hv => hS i v hi (h.vars i hi v hv)⟩

end
end Repro
