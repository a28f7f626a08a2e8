import Verif.Model.Ctx
import Verif.Model.ExtDiv
import Verif.Model.Root
/-!
# The macro `expr!` (astro-float-macro/src/lib.rs, util.rs)

The macro turns an expression into a block of Rust code. The model is the meaning of that code: an expression is a tree,
`MExpr.init` the vector `err` that the traversal collects, `MExpr.eval` a run of the code generated for the tree, `exprLoop`
the loop around it. The `continue` of the generated code, which abandons the round with a changed array `errs`, is the error
case of `eval`.

Not modelled: the functions and constants that need the cache of constants (`ln`, `exp`, `sin`, ..., `pi`), arguments of types
other than `BigFloat` (they are converted by `From` before), literals that are not exact (they are parsed at run time), and the
compile errors of the traversal.
-/

namespace AF

/-- The expressions modelled. -/
inductive MExpr
  /-- A variable of type `BigFloat` (lib.rs 412-419). -/
  | var (x : BF)
  /-- A literal whose value was parsed exactly at compile time (util.rs 14-36). -/
  | lit (x : BF)
  /-- `-x` (lib.rs 422-436). -/
  | neg (a : MExpr)
  /-- `+`, `-`, `*` and `/` (lib.rs 40-99). -/
  | add (a b : MExpr)
  | sub (a b : MExpr)
  | mul (a b : MExpr)
  | div (a b : MExpr)
  /-- `%` (lib.rs 100-102). -/
  | rem (a b : MExpr)
  /-- `recip(x)`, `sqrt(x)` and `cbrt(x)` (lib.rs 112-132 and 229-238). -/
  | recip (a : MExpr)
  | sqrt (a : MExpr)
  | cbrt (a : MExpr)

namespace MExpr

/-- The vector `err` of the traversal: the initial values of `errs` (the calls of `err.push`, lib.rs 52, 72, 92, 97 and 123). -/
def init : MExpr → List Nat
  | var _ => []
  | lit _ => []
  | neg a => a.init
  | add a b => a.init ++ b.init ++ [2]
  | sub a b => a.init ++ b.init ++ [2]
  | mul a b => a.init ++ b.init ++ [3]
  | div a b => a.init ++ b.init ++ [3]
  | rem a b => a.init ++ b.init
  | recip a => a.init ++ [2]
  | sqrt a => a.init ++ [1]
  | cbrt a => a.init ++ [1]

/-- The check after an addition and a subtraction (lib.rs 57-67 and 77-87): the new value of `errs[id]`, if it has to grow;
`sub` tells which of the two it is. -/
def cancelled (sub : Bool) (x y r : BF) (errs : List Nat) (id : Nat) : Option Nat :=
  if x.inexact || y.inexact then
    match x.exponent, y.exponent, r.exponent with
    | some e1, some e2, some e3 =>
      if (e1 - e2).natAbs ≤ 1 ∧ (x.sign = y.sign ↔ sub = true) then
        let newerr := (max e1 e2 - e3).natAbs + 1
        if errs.getD id 0 < newerr then some newerr else none
      else none
    | _, _, _ => none
  else none

/-- The value of an argument (lib.rs 413-418): `from_ext` (ext.rs 1656-1668), `set_inexact(false)`, `check_exponent_range`. -/
def argument (w : Nat) (emin emax : Int) (x : BF) : BF :=
  let arg := match x.setPrecision w .toEven with
    | .error e => BF.nan (some e)
    | .ok v => v
  checkExponentRange (arg.setInexact false) emin emax

/-- A run of the code generated for an expression with `p_wrk = w`; the entries of `errs` that belong to it start at `k`. An
error is `continue` with the changed `errs`. -/
def eval (w : Nat) (emin emax : Int) (errs : List Nat) : MExpr → Nat → Except (List Nat) BF
  | var x, _ => .ok (argument w emin emax x)
  | lit x, _ => .ok (checkExponentRange x emin emax)
  | neg a, k => match a.eval w emin emax errs k with
    | .error s => .error s
    | .ok x => .ok x.neg
  | add a b, k => match a.eval w emin emax errs k with
    | .error s => .error s
    | .ok x => match b.eval w emin emax errs (k + a.init.length) with
      | .error s => .error s
      | .ok y =>
        let r := x.add y w .none
        let id := k + a.init.length + b.init.length
        match cancelled false x y r errs id with
        | some n => .error (errs.set id n)
        | none => .ok r
  | sub a b, k => match a.eval w emin emax errs k with
    | .error s => .error s
    | .ok x => match b.eval w emin emax errs (k + a.init.length) with
      | .error s => .error s
      | .ok y =>
        let r := x.sub y w .none
        let id := k + a.init.length + b.init.length
        match cancelled true x y r errs id with
        | some n => .error (errs.set id n)
        | none => .ok r
  | mul a b, k => match a.eval w emin emax errs k with
    | .error s => .error s
    | .ok x => match b.eval w emin emax errs (k + a.init.length) with
      | .error s => .error s
      | .ok y => .ok (x.mul y w .none)
  | div a b, k => match a.eval w emin emax errs k with
    | .error s => .error s
    | .ok x => match b.eval w emin emax errs (k + a.init.length) with
      | .error s => .error s
      | .ok y => .ok (x.div y w .none)
  | rem a b, k => match a.eval w emin emax errs k with
    | .error s => .error s
    | .ok x => match b.eval w emin emax errs (k + a.init.length) with
      | .error s => .error s
      | .ok y => .ok (x.rem y)
  | recip a, k => match a.eval w emin emax errs k with
    | .error s => .error s
    | .ok x => .ok (x.reciprocal w .none)
  | sqrt a, k => match a.eval w emin emax errs k with
    | .error s => .error s
    | .ok x => .ok (x.sqrt w .none)
  | cbrt a, k => match a.eval w emin emax errs k with
    | .error s => .error s
    | .ok x => .ok (x.cbrt w .none)

end MExpr

/-- The end of the block (lib.rs 487-491): `set_precision` and `check_exponent_range`. -/
def exprFinish (p : Nat) (rm : RM) (emin emax : Int) (r : BF) : BF :=
  checkExponentRange (match r.setPrecision p rm with
    | .error e => BF.nan (some e)
    | .ok v => v) emin emax

/-- The loop (lib.rs 482-492), on fuel. Besides the result it returns `p_wrk`. -/
def exprLoop (e : MExpr) (p : Nat) (rm : RM) (emin emax : Int) : Nat → List Nat → Option (BF × Nat)
  | 0, _ => none
  | f + 1, errs =>
    let w := min USIZE_MAX (p + 64 + errs.sum)
    match e.eval w emin emax errs 0 with
    | .error s => exprLoop e p rm emin emax f s
    | .ok r => some (exprFinish p rm emin emax r, w)

/-- `expr!(e, ctx)` (lib.rs 455-496). -/
def exprMacro (e : MExpr) (c : CtxView) (fuel : Nat) : Option (BF × Nat) :=
  exprLoop e c.precision c.roundingMode c.emin c.emax fuel e.init

end AF
