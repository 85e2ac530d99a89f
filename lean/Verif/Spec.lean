import Verif.Binned
/-!
# Specification: slices and canonical binned values

Everything here is stated on exact integers (multiples of the least subnormal `2^-eta`), with no
floating point operation involved.
-/

namespace Repro
namespace Fmt
variable (F : Fmt)

/-- Bin `j` holds multiples of `2^(MAX_EXP - W + 1 - j*W)` (real units); here the exponent is
relative to the least subnormal. Bins after `maxIndex` have the unit of bin `maxIndex`. -/
def uexp (j : Nat) : Nat := (F.eta + F.maxExp + 1 - F.W) - F.W * min j F.maxIndex

/-- `r / 2^u` rounded to the nearest integer, ties away from zero. -/
def rha (r : Int) (u : Nat) : Int :=
  if 0 ≤ r then (r + 2 ^ (u - 1)) / 2 ^ u else -((-r + 2 ^ (u - 1)) / 2 ^ u)

/-- What is left of `r` when bins `0 .. j-1` have taken their slices. -/
def resid (r : Int) : Nat → Int
  | 0 => r
  | j + 1 => resid r j - rha (resid r j) (F.uexp j) * 2 ^ F.uexp j

/-- The slice of `r` in bin `j`, in multiples of the unit of that bin. -/
def slice (r : Int) (j : Nat) : Int := rha (F.resid r j) (F.uexp j)

/-- The exponent at which the primary of bin `j` is stored: bin 0 is stored scaled down
("compressed") so that it does not overflow. -/
def sexp (j : Nat) : Nat := if j = 0 then F.emax - 2 else F.uexp j

/-- The primary with mantissa offset `b` from the reference `1.5 * 2^e` of bin `j`. -/
def mkPri (j : Nat) (b : Int) : Flt :=
  ⟨false, F.sexp j * 2 ^ (F.p - 1) + ((3 * 2 ^ (F.p - 2) + b : Int)).toNat⟩

/-- Binned value of index `k` with primary offsets `B j` and carries `C j` (`k <= j < k + fold`). -/
def mid (fold k : Nat) (B C : Nat → Int) : Binned :=
  ⟨(List.range' k fold).map (fun j => F.mkPri j (B j)),
   (List.range' k fold).map (fun j => F.ofInt (C j))⟩

/-- The canonical binned value of index `k` holding the exact total `A j` (in units of bin `j`) in
each bin: a carry counts quarters of the binade of the primary, the primary keeps the remainder. -/
def canon (fold k : Nat) (A : Nat → Int) : Binned :=
  F.mid fold k (fun j => A j % 2 ^ (F.p - 3)) (fun j => A j / 2 ^ (F.p - 3))

/-- Total per bin of a list of numbers. -/
def total (xs : List Flt) (j : Nat) : Int := (xs.map (fun x => F.slice (F.toInt x) j)).sum

/-- Smallest index of the numbers of a list (`maxIndex` for the empty list). -/
def minIndex (xs : List Flt) : Nat := xs.foldr (fun x k => min (F.dindex x) k) F.maxIndex

/-- The specification of reproducible summation: all zero bits for the empty sum, otherwise the
canonical value of the smallest index with the totals of the slices. It only depends on the
multiset of summands. -/
def specSum (fold : Nat) (xs : List Flt) : Binned :=
  if xs = [] then dmsetzero fold else F.canon fold (F.minIndex xs) (F.total xs)

end Fmt
end Repro
