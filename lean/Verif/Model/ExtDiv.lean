import Verif.Model.Ext
import Verif.Model.Div
/-!
# `BigFloat` division, remainder and reciprocal (ext.rs)
-/

namespace AF
namespace BF

/-- `div` (ext.rs 286-306). -/
def div (x y : BF) (p : Nat) (rm : RM) : BF :=
  match x, y with
  | num v1, num v2 => resultToExt (v1.div v2 p rm) v1.isZero (v1.s == v2.s)
  | num v1, inf _ => new v1.m.maxBitLen
  | num _, nan e => nan e
  | inf s1, num v => if s1 = v.s then INF_POS else INF_NEG
  | inf _, inf _ => NAN
  | inf _, nan e => nan e
  | nan e, _ => nan e

/-- `rem` (ext.rs 309-323). -/
def rem (x y : BF) : BF :=
  match x, y with
  | num v1, num v2 => resultToExt (v1.rem v2) v1.isZero (v1.s == v2.s)
  | num v1, inf _ => num v1
  | num _, nan e => nan e
  | inf _, _ => NAN
  | nan e, _ => nan e

/-- `reciprocal` (ext.rs 999-1009). -/
def reciprocal (x : BF) (p : Nat) (rm : RM) : BF :=
  match x with
  | num v => resultToExt (v.reciprocal p rm) false v.isPositive
  | inf s => (new p).setSign s
  | nan e => nan e

end BF
end AF
