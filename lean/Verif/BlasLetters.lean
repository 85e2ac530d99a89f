import Verif.PropsGemm2
import Verif.ZGemmLemmas

/-!
# The letters and storage orders of the BLAS standard

A specification that takes nothing from the model of the code, and what the model makes of the letters.
-/

namespace Repro
open Fmt

/-- The storage orders. -/
inductive StoreOrder where
  | rowMajor
  | colMajor
deriving DecidableEq

/-- The operations on a matrix argument. -/
inductive BlasOp where
  | noTrans
  | trans
  | conjTrans
deriving DecidableEq

/-- The letters of the storage orders. -/
inductive OrderLetter : Char → StoreOrder → Prop where
  | r : OrderLetter 'r' .rowMajor
  | R : OrderLetter 'R' .rowMajor
  | c : OrderLetter 'c' .colMajor
  | C : OrderLetter 'C' .colMajor

/-- The letters of the operations. -/
inductive OpLetter : Char → BlasOp → Prop where
  | n : OpLetter 'n' .noTrans
  | N : OpLetter 'N' .noTrans
  | t : OpLetter 't' .trans
  | T : OpLetter 'T' .trans
  | c : OpLetter 'c' .conjTrans
  | C : OpLetter 'C' .conjTrans

/-- Where entry `(i, j)` of a matrix with leading dimension `ld` is stored. -/
def StoreOrder.pos : StoreOrder → Int → Nat → Nat → Int
  | .rowMajor, ld, i, j => i * ld + j
  | .colMajor, ld, i, j => j * ld + i

/-- The array `A` holds the `m` by `n` matrix `a`. -/
def StoreOrder.Stores {α : Type} (L : StoreOrder) (A : Int → α) (ld : Int) (m n : Nat) (a : Nat → Nat → α) : Prop := ∀ i j : Nat, i < m → j < n → A (L.pos ld i j) = a i j

/-- op(a) for a real matrix. -/
def BlasOp.mat : BlasOp → (Nat → Nat → Flt) → Nat → Nat → Flt
  | .noTrans, a => a
  | .trans, a => fun i j => a j i
  | .conjTrans, a => fun i j => a j i

/-- op(a) for a complex matrix. -/
def BlasOp.zmat : BlasOp → (Nat → Nat → Flt × Flt) → Nat → Nat → Flt × Flt
  | .noTrans, a => a
  | .trans, a => fun i j => a j i
  | .conjTrans, a => fun i j => ((a j i).1, fneg (a j i).2)

/-- The number of rows of the matrix stored for an `m` by `n` matrix op(a). -/
def BlasOp.rows : BlasOp → Nat → Nat → Nat
  | .noTrans, m, _ => m
  | _, _, n => n

/-- The number of columns of the matrix stored for an `m` by `n` matrix op(a); and of op(a) for a stored one. -/
def BlasOp.cols : BlasOp → Nat → Nat → Nat
  | .noTrans, _, n => n
  | _, m, _ => m

theorem isRow_letter {o : Char} {L : StoreOrder} (h : OrderLetter o L) : isRow o = decide (L = .rowMajor) := by cases h <;> rfl

theorem isNo_letter {t : Char} {op : BlasOp} (h : OpLetter t op) : isNo t = decide (op = .noTrans) := by cases h <;> rfl

def BlasOp.toTr : BlasOp → Tr
  | .noTrans => .no
  | .trans => .tr
  | .conjTrans => .cj

theorem trOf_letter {t : Char} {op : BlasOp} (h : OpLetter t op) : trOf t = op.toTr := by cases h <;> rfl

theorem pos_letter {o : Char} {L : StoreOrder} (h : OrderLetter o L) (ld : Int) (i j : Nat) : entryAt (isRow o) ld i j = L.pos ld i j := by
  rw [isRow_letter h]; cases L <;> rfl

theorem opEl_letter {o t : Char} {L : StoreOrder} {op : BlasOp} (ho : OrderLetter o L) (ht : OpLetter t op) {A : Int → Flt} {ld : Int} {m n : Nat} {a : Nat → Nat → Flt}
    (h : L.Stores A ld (op.rows m n) (op.cols m n) a) {i j : Nat} (hi : i < m) (hj : j < n) : opEl (isRow o) (isNo t) A ld i j = op.mat a i j := by
  rw [isRow_letter ho, isNo_letter ht]
  cases L <;> cases op <;> first | exact h i j hi hj | exact h j i hj hi

theorem zopEl_letter {o t : Char} {L : StoreOrder} {op : BlasOp} (ho : OrderLetter o L) (ht : OpLetter t op) {A : Int → Flt × Flt} {ld : Int} {m n : Nat} {a : Nat → Nat → Flt × Flt}
    (h : L.Stores A ld (op.rows m n) (op.cols m n) a) {i j : Nat} (hi : i < m) (hj : j < n) : zopEl (isRow o) (trOf t) A ld i j = op.zmat a i j := by
  rw [isRow_letter ho, trOf_letter ht]
  cases L <;> cases op <;> first
    | exact h i j hi hj
    | exact h j i hj hi
    | (show ((A _).1, fneg (A _).2) = ((a j i).1, fneg (a j i).2); rw [← h j i hj hi]; rfl)

end Repro
