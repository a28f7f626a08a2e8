import Verif.Model.Consts
import Verif.Model.Root
/-!
# The constant pi (ops/consts/pi.rs, mod.rs)

The Chudnovsky series, summed by binary splitting like the series of `Model/Consts.lean`. The state is `(p, q, r)`
together with the number of terms it holds: `for_prec` passes `b * 47` to `calc_pi`, and the shared loop hands only the
state to the function that computes the value. Arithmetic on `u64` is arithmetic on natural numbers; `b` stays below
`2^25`, so that `13591409 + 545140134 * b` stays below `2^64`.
-/

namespace AF

/-- One term of the series (pi.rs 9-32). -/
def piLeaf (b : Nat) : Except Err (Num × Num × Num × Nat) :=
  match Num.fromU 64 (6 * b - 5) 64 with
  | .error e => .error e
  | .ok n0 => match Num.fromU 64 (2 * b - 1) 64 with
  | .error e => .error e
  | .ok n1 => match Num.fromU 64 (6 * b - 1) 64 with
  | .error e => .error e
  | .ok n2 => match n0.mulFullPrec n1 with
  | .error e => .error e
  | .ok n3 => match n3.mulFullPrec n2 with
  | .error e => .error e
  | .ok r => match Num.fromU 64 10939058860032000 64 with
  | .error e => .error e
  | .ok n0 => match Num.fromU 64 b 64 with
  | .error e => .error e
  | .ok n1 => match n1.mulFullPrec n1 with
  | .error e => .error e
  | .ok n2 => match n2.mulFullPrec n1 with
  | .error e => .error e
  | .ok n3 => match n0.mulFullPrec n3 with
  | .error e => .error e
  | .ok q => match Num.fromU 64 (13591409 + 545140134 * b) 64 with
  | .error e => .error e
  | .ok n0 => match r.mulFullPrec n0 with
  | .error e => .error e
  | .ok p => .ok (if b % 2 ≠ 0 then p.invSign else p, q, r, 1)

/-- Two adjacent ranges (pi.rs 38-44 and 57-63). -/
def piMerge (a b : Num × Num × Num × Nat) : Except Err (Num × Num × Num × Nat) :=
  match a.2.2.1.mulFullPrec b.2.2.1 with
  | .error e => .error e
  | .ok r => match a.2.1.mulFullPrec b.2.1 with
    | .error e => .error e
    | .ok q => match a.1.mulFullPrec b.2.1 with
      | .error e => .error e
      | .ok n0 => match b.1.mulFullPrec a.2.2.1 with
        | .error e => .error e
        | .ok n1 => match n0.addFullPrec n1 with
          | .error e => .error e
          | .ok p => .ok (p, q, r, a.2.2.2 + b.2.2.2)

/-- `calc_pi` (pi.rs 79-98): `q * 4270934400 / ((p + q * 13591409) * sqrt(10005))`. -/
def piCalc (p q : Num) (k : Nat) : Except Err Num :=
  match Num.fromWord 4270934400 1 with
  | .error e => .error e
  | .ok n0 => match Num.fromWord 13591409 1 with
  | .error e => .error e
  | .ok n1 => match q.mulFullPrec n0 with
  | .error e => .error e
  | .ok q0 => match q.mulFullPrec n1 with
  | .error e => .error e
  | .ok q1 => match p.addFullPrec q1 with
  | .error e => .error e
  | .ok p0 => match Num.fromWord 10005 1 with
  | .error e => .error e
  | .ok f3 => match f3.sqrt k .none with
  | .error e => .error e
  | .ok f4 => match p0.mul f4 (max p0.m.maxBitLen f4.m.maxBitLen) .none with
  | .error e => .error e
  | .ok f5 => q0.div f5 (max q0.m.maxBitLen f5.m.maxBitLen) .none

/-- The value that `for_prec` computes (pi.rs 145). -/
def piValue (t : Num × Num × Num × Nat) : Except Err Num := piCalc t.1 t.2.1 (t.2.2.2 * 47)

/-- `PiCache::new` (pi.rs 100-111). -/
def piNew : Except Err (ConstCache (Num × Num × Num × Nat)) :=
  match splitSeries piLeaf piMerge 64 0 1 with
  | .error e => .error e
  | .ok t => match piCalc t.1 t.2.1 1 with
    | .error e => .error e
    | .ok v => .ok { b := 1, t, val := v }

/-- `PiCache::for_prec` (pi.rs 114-152). -/
def piForPrec (k : Nat) (rm : RM) (c : ConstCache (Num × Num × Num × Nat)) :
    Option (Except Err Num × ConstCache (Num × Num × Num × Nat)) :=
  constForPrec piLeaf piMerge piValue (fun _ => (k + 46 + 64) / 47) k rm c

/-- `Consts::pi` (ops/consts/mod.rs 56-59 and 103-108). -/
def constPi (p : Nat) (rm : RM) (c : ConstCache (Num × Num × Num × Nat)) :
    Option (BF × ConstCache (Num × Num × Num × Nat)) :=
  (piForPrec (roundP p) rm c).map fun r => (constToBF r.1, r.2)

end AF
