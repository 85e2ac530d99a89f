import Verif.PropsMem
import Verif.Hist
/-!
# The public operations on packed binned values

A packed value (`double_binned *` and its relatives) is a pointer to `binned_dbnum(fold)` (complex:
`binned_zbnum(fold)`) consecutive words. Every function here models the wrapper of the same name; the single
precision twins (`sb*`, `cb*`) are the same code with the type changed and are this model at `F = f32`.
-/

namespace Repro

/-- `memset(X, 0, k * sizeof(word))`: a word of zero bytes is `+0.0`. -/
def memset0 (X : Int) (k : Int) (m : Mem) : Mem := fun a => if X ≤ a ∧ a < X + k then Fmt.zero else m a

/-- `memcpy(Y, X, k * sizeof(word))`. -/
def memcpyW (Y X : Int) (k : Int) (m : Mem) : Mem := fun a => if Y ≤ a ∧ a < Y + k then m (X + (a - Y)) else m a

namespace Fmt
variable (F : Fmt)

/-- `binned_dbsetzero` (`src/binned/dbsetzero.c:17-19`), `binned_sbsetzero` (`src/binned/sbsetzero.c:17-19`). -/
def dbsetzero (fold : Nat) (X : Int) (m : Mem) : Mem := memset0 X (dbnum fold) m
/-- `binned_dbdbset` (`src/binned/dbdbset.c:18-20`), `binned_sbsbset` (`src/binned/sbsbset.c:18-20`). -/
def dbdbset (fold : Nat) (X Y : Int) (m : Mem) : Mem := memcpyW Y X (dbnum fold) m
/-- `binned_dbdupdate` (`src/binned/dbdupdate.c:16-18`), `binned_sbsupdate` (`src/binned/sbsupdate.c:16-18`). -/
def dbdupdate (fold : Nat) (x : Flt) (Y : Int) (m : Mem) : Mem := F.dmdupdateM fold x (packed fold Y) m
/-- `binned_dbddeposit` (`src/binned/dbddeposit.c:18-20`), `binned_sbsdeposit` (`src/binned/sbsdeposit.c:18-20`). -/
def dbddeposit (fold : Nat) (x : Flt) (Y : Int) (m : Mem) : Mem := F.dmddepositM fold x (packed fold Y) m
/-- `binned_dbrenorm` (`src/binned/dbrenorm.c:15-17`), `binned_sbrenorm` (`src/binned/sbrenorm.c:15-17`). -/
def dbrenorm (fold : Nat) (X : Int) (m : Mem) : Mem := F.dmrenormM fold (packed fold X) m
/-- `binned_dbdadd` (`src/binned/dbdadd.c:16-18`), `binned_sbsadd` (`src/binned/sbsadd.c:16-18`). -/
def dbdadd (fold : Nat) (x : Flt) (Y : Int) (m : Mem) : Mem := F.dmdaddM fold x (packed fold Y) m
/-- `binned_dbdconv` (`src/binned/dbdconv.c:14-16`), `binned_sbsconv` (`src/binned/sbsconv.c:14-16`). -/
def dbdconv (fold : Nat) (x : Flt) (Y : Int) (m : Mem) : Mem := F.dmdconvM fold x (packed fold Y) m
/-- `binned_dbnegate` (`src/binned/dbnegate.c:15-17`), `binned_sbnegate` (`src/binned/sbnegate.c:15-17`). -/
def dbnegate (fold : Nat) (X : Int) (m : Mem) : Mem := F.dmnegateM fold (packed fold X) m
/-- `binned_dbdbadd` (`src/binned/dbdbadd.c:16-18`), `binned_sbsbadd` (`src/binned/sbsbadd.c:16-18`). -/
def dbdbadd (fold : Nat) (X Y : Int) (m : Mem) : Mem := F.dmdmaddM fold (packed fold X) (packed fold Y) m
/-- `binned_ddbconv` (`src/binned/ddbconv.c:14-16`), `binned_ssbconv` (`src/binned/ssbconv.c:14-16`). -/
def ddbconv (fold : Nat) (X : Int) (m : Mem) : Flt := F.convertM fold (packed fold X) m

/-- `binned_zbsetzero` (`src/binned/zbsetzero.c:17-19`), `binned_cbsetzero` (`src/binned/cbsetzero.c:17-19`). -/
def zbsetzero (fold : Nat) (X : Int) (m : Mem) : Mem := memset0 X (zbnum fold) m
/-- `binned_zbzbset` (`src/binned/zbzbset.c:18-20`), `binned_cbcbset` (`src/binned/cbcbset.c:18-20`). -/
def zbzbset (fold : Nat) (X Y : Int) (m : Mem) : Mem := memcpyW Y X (zbnum fold) m
/-- `binned_zbdbset` (`src/binned/zbdbset.c:16-18`), `binned_cbsbset` (`src/binned/cbsbset.c:16-18`). -/
def zbdbset (fold : Nat) (X Y : Int) (m : Mem) : Mem := zmdmsetM fold (packed fold X) (zpacked fold Y) m
/-- `binned_zbzupdate` (`src/binned/zbzupdate.c:16-18`), `binned_cbcupdate` (`src/binned/cbcupdate.c:16-18`). -/
def zbzupdate (fold : Nat) (xR xI : Flt) (Y : Int) (m : Mem) : Mem := F.zmzupdateM fold xR xI (zpacked fold Y) m
/-- `binned_zbdupdate` (`src/binned/zbdupdate.c:16-18`), `binned_cbsupdate` (`src/binned/cbsupdate.c:16-18`). -/
def zbdupdate (fold : Nat) (x : Flt) (Y : Int) (m : Mem) : Mem := F.zmdupdateM fold x (zpacked fold Y) m
/-- `binned_zbzdeposit` (`src/binned/zbzdeposit.c:18-20`), `binned_cbcdeposit` (`src/binned/cbcdeposit.c:18-20`). -/
def zbzdeposit (fold : Nat) (xR xI : Flt) (Y : Int) (m : Mem) : Mem := F.zmzdepositM fold xR xI (zpacked fold Y) m
/-- `binned_zbrenorm` (`src/binned/zbrenorm.c:15-17`), `binned_cbrenorm` (`src/binned/cbrenorm.c:15-17`). -/
def zbrenorm (fold : Nat) (X : Int) (m : Mem) : Mem := F.zmrenormM fold (zpacked fold X) m
/-- `binned_zbzadd` (`src/binned/zbzadd.c:16-18`), `binned_cbcadd` (`src/binned/cbcadd.c:16-18`). -/
def zbzadd (fold : Nat) (xR xI : Flt) (Y : Int) (m : Mem) : Mem := F.zmzaddM fold xR xI (zpacked fold Y) m
/-- `binned_zbzconv` (`src/binned/zbzconv.c:14-16`), `binned_cbcconv` (`src/binned/cbcconv.c:14-16`). -/
def zbzconv (fold : Nat) (xR xI : Flt) (Y : Int) (m : Mem) : Mem := F.zmzconvM fold xR xI (zpacked fold Y) m
/-- `binned_zbnegate` (`src/binned/zbnegate.c:15-17`), `binned_cbnegate` (`src/binned/cbnegate.c:15-17`). -/
def zbnegate (fold : Nat) (X : Int) (m : Mem) : Mem := F.zmnegateM fold (zpacked fold X) m
/-- `binned_zbzbadd` (`src/binned/zbzbadd.c:16-18`), `binned_cbcbadd` (`src/binned/cbcbadd.c:16-18`). -/
def zbzbadd (fold : Nat) (X Y : Int) (m : Mem) : Mem := F.zmzmaddM fold (zpacked fold X) (zpacked fold Y) m
/-- `binned_zzbconv_sub` (`src/binned/zzbconv_sub.c:14-16`), `binned_ccbconv_sub` (`src/binned/ccbconv_sub.c:14-16`). -/
def zzbconv (fold : Nat) (X : Int) (m : Mem) : Flt × Flt := F.zzmconvM fold (zpacked fold X) m

end Fmt

/-! ## Programs of public calls -/

/-- One call of the public interface. Real values and complex values are numbered separately. -/
inductive Call where
  /-- a call on the real value `v` -/
  | real (v : Nat) (o : Op)
  /-- `binned_dbdbadd(fold, u, v)`: `v += u` -/
  | realAdd (u v : Nat)
  /-- `binned_dbdbset(fold, u, v)`: `v := u` -/
  | realSet (u v : Nat)
  /-- a call on the complex value `v` -/
  | cplx (v : Nat) (o : COp)
  | cplxAdd (u v : Nat)
  | cplxSet (u v : Nat)
  /-- `binned_zbdbset(fold, u, v)`: complex `v := ` real `u` -/
  | cplxOfReal (u v : Nat)
deriving DecidableEq, Repr

/-- Where the values are: `real v` and `cplx v` are the pointers the program passes. -/
structure Layout where
  real : Nat → Int
  cplx : Nat → Int

namespace Call

/-- Execution of a call in memory. -/
def exec (F : Fmt) (n : Nat) (L : Layout) (m : Mem) : Call → Mem
  | .real v .setzero => Fmt.dbsetzero n (L.real v) m
  | .real v (.update x) => F.dbdupdate n x (L.real v) m
  | .real v (.deposit x) => F.dbddeposit n x (L.real v) m
  | .real v .renorm => F.dbrenorm n (L.real v) m
  | .real v (.add x) => F.dbdadd n x (L.real v) m
  | .real v (.ofNum x) => F.dbdconv n x (L.real v) m
  | .real v .negate => F.dbnegate n (L.real v) m
  | .realAdd u v => F.dbdbadd n (L.real u) (L.real v) m
  | .realSet u v => Fmt.dbdbset n (L.real u) (L.real v) m
  | .cplx v .setzero => Fmt.zbsetzero n (L.cplx v) m
  | .cplx v (.update xR xI) => F.zbzupdate n xR xI (L.cplx v) m
  | .cplx v (.update1 x) => F.zbdupdate n x (L.cplx v) m
  | .cplx v (.deposit xR xI) => F.zbzdeposit n xR xI (L.cplx v) m
  | .cplx v .renorm => F.zbrenorm n (L.cplx v) m
  | .cplx v (.add xR xI) => F.zbzadd n xR xI (L.cplx v) m
  | .cplx v (.ofNum xR xI) => F.zbzconv n xR xI (L.cplx v) m
  | .cplx v .negate => F.zbnegate n (L.cplx v) m
  | .cplxAdd u v => F.zbzbadd n (L.cplx u) (L.cplx v) m
  | .cplxSet u v => Fmt.zbzbset n (L.cplx u) (L.cplx v) m
  | .cplxOfReal u v => Fmt.zbdbset n (L.real u) (L.cplx v) m

/-- The call uses only the first `Nr` real and `Nc` complex values, and source and target of a copy differ
(`memcpy` onto itself is undefined). -/
def ok (Nr Nc : Nat) : Call → Prop
  | .real v _ => v < Nr
  | .realAdd u v => u < Nr ∧ v < Nr
  | .realSet u v => u < Nr ∧ v < Nr ∧ u ≠ v
  | .cplx v _ => v < Nc
  | .cplxAdd u v => u < Nc ∧ v < Nc
  | .cplxSet u v => u < Nc ∧ v < Nc ∧ u ≠ v
  | .cplxOfReal u v => u < Nr ∧ v < Nc

end Call

/-- The blocks `[a, a + k)` and `[b, b + l)` do not overlap. -/
def Disjoint2 (a k b l : Int) : Prop := a + k ≤ b ∨ b + l ≤ a

/-- The values do not overlap: each occupies the number of words its size function declares. -/
structure Layout.OK (n : Nat) (L : Layout) (Nr Nc : Nat) : Prop where
  rr : ∀ u < Nr, ∀ v < Nr, u ≠ v → Disjoint2 (L.real u) (dbnum n) (L.real v) (dbnum n)
  cc : ∀ u < Nc, ∀ v < Nc, u ≠ v → Disjoint2 (L.cplx u) (zbnum n) (L.cplx v) (zbnum n)
  rc : ∀ u < Nr, ∀ v < Nc, Disjoint2 (L.real u) (dbnum n) (L.cplx v) (zbnum n)

end Repro
