import Verif.Model.Ext
/-!
# Model of `Context` and of the exponent range check of `expr!` (ctx.rs, macro_util.rs)

The constants cache `Consts` is an arbitrary type `κ`: the functions below only store and return it.
`const_pi`, `const_e`, `const_ln2`, `const_ln10` (ctx.rs 89-106) are not modelled.
-/

namespace AF

/-- `Ord::clamp` on `Exponent` (core): the caller passes `lo ≤ hi`. -/
def clampE (x lo hi : Int) : Int := if x < lo then lo else if x > hi then hi else x

/-- `Context` (ctx.rs 12-19). -/
structure Ctx (κ : Type) where
  cc : κ
  p : Nat
  rm : RM
  emin : Int
  emax : Int

namespace Ctx
variable {κ : Type}

/-- `Context::new` (ctx.rs 25-33). -/
def new (p : Nat) (rm : RM) (cc : κ) (emin emax : Int) : Ctx κ :=
  { cc, p, rm, emin := clampE emin EMIN 0, emax := clampE emax 0 EMAX }

/-- `Context::to_raw_parts` (ctx.rs 37-46). -/
def toRawParts (c : Ctx κ) : Nat × RM × κ × Int × Int := (c.p, c.rm, c.cc, c.emin, c.emax)

/-- `Context::set_precision` (ctx.rs 49-51). -/
def setPrecision (c : Ctx κ) (p : Nat) : Ctx κ := { c with p }
/-- `Context::set_rounding_mode` (ctx.rs 54-56). -/
def setRoundingMode (c : Ctx κ) (rm : RM) : Ctx κ := { c with rm }
/-- `Context::set_consts` (ctx.rs 59-61). -/
def setConsts (c : Ctx κ) (cc : κ) : Ctx κ := { c with cc }
/-- `Context::set_emin` (ctx.rs 65-67). -/
def setEmin (c : Ctx κ) (emin : Int) : Ctx κ := { c with emin := clampE emin EMIN 0 }
/-- `Context::set_emax` (ctx.rs 71-73). -/
def setEmax (c : Ctx κ) (emax : Int) : Ctx κ := { c with emax := clampE emax 0 EMAX }
/-- `Context::clone` (ctx.rs 126-135): `fresh` is the result of `Consts::new()`. -/
def clone (c : Ctx κ) (fresh : Except Err κ) : Except Err (Ctx κ) :=
  match fresh with
  | .error e => .error e
  | .ok cc => .ok { p := c.p, rm := c.rm, cc, emin := c.emin, emax := c.emax }

end Ctx

/-- The accessors of `Contextable` that do not touch the constants cache (ctx.rs 157-185). -/
structure CtxView where
  precision : Nat
  roundingMode : RM
  emin : Int
  emax : Int

/-- `Contextable for Context` (ctx.rs 271-307). -/
def Ctx.view {κ : Type} (c : Ctx κ) : CtxView := ⟨c.p, c.rm, c.emin, c.emax⟩
/-- `Contextable for (usize, RoundingMode, &mut Consts)` (ctx.rs 187-227). -/
def tuple3View {κ : Type} (t : Nat × RM × κ) : CtxView := ⟨t.1, t.2.1, EMIN, EMAX⟩
/-- `Contextable for (usize, RoundingMode, &mut Consts, Exponent, Exponent)` (ctx.rs 229-269). -/
def tuple5View {κ : Type} (t : Nat × RM × κ × Int × Int) : CtxView :=
  ⟨t.1, t.2.1, clampE t.2.2.2.1 EMIN 0, clampE t.2.2.2.2 0 EMAX⟩

/-- `check_exponent_range` (macro_util.rs 221-237). -/
def checkExponentRange (n : BF) (emin emax : Int) : BF :=
  match n.exponent with
  | some e =>
    if e > emax then if n.isPositive then BF.INF_POS else BF.INF_NEG
    else if e < emin then BF.new (n.mantissaMaxBitLen.getD DEFAULT_P)
    else n
  | none => n

end AF
