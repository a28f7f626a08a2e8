import Verif.Model.Ctx
import Mathlib.Algebra.Order.Group.Unbundled.Abs
import Mathlib.Data.List.Basic
/-!
# C47: Context exponent bounds

Specification: the limit in force is the admissible value closest to the requested one.
-/

namespace AF

/-- `y` is the element of `[lo, hi]` closest to `x`. -/
def ClosestIn (lo hi x y : Int) : Prop :=
  (lo ≤ y ∧ y ≤ hi) ∧ ∀ z, lo ≤ z → z ≤ hi → (x - y).natAbs ≤ (x - z).natAbs

/-- The setter calls of a context. -/
inductive CtxCall (κ : Type)
  | precision (p : Nat) | roundingMode (rm : RM) | consts (cc : κ) | emin (e : Int) | emax (e : Int)

/-- Runs one setter. -/
def CtxCall.run {κ : Type} (c : Ctx κ) : CtxCall κ → Ctx κ
  | .precision p => c.setPrecision p
  | .roundingMode rm => c.setRoundingMode rm
  | .consts cc => c.setConsts cc
  | .emin e => c.setEmin e
  | .emax e => c.setEmax e

/-- The last request for `emin` in a history, starting from `d`. -/
def lastEmin {κ : Type} (d : Int) (l : List (CtxCall κ)) : Int :=
  (l.filterMap fun | .emin e => some e | _ => none).getLastD d
/-- The last request for `emax` in a history, starting from `d`. -/
def lastEmax {κ : Type} (d : Int) (l : List (CtxCall κ)) : Int :=
  (l.filterMap fun | .emax e => some e | _ => none).getLastD d
/-- The last requested precision. -/
def lastP {κ : Type} (d : Nat) (l : List (CtxCall κ)) : Nat :=
  (l.filterMap fun | .precision e => some e | _ => none).getLastD d
/-- The last requested rounding mode. -/
def lastRm {κ : Type} (d : RM) (l : List (CtxCall κ)) : RM :=
  (l.filterMap fun | .roundingMode e => some e | _ => none).getLastD d

theorem clampE_closest {lo hi : Int} (h : lo ≤ hi) (x : Int) : ClosestIn lo hi x (clampE x lo hi) := by
  unfold ClosestIn clampE
  split
  · exact ⟨by omega, fun z h1 h2 => by omega⟩
  · split
    · exact ⟨by omega, fun z h1 h2 => by omega⟩
    · exact ⟨by omega, fun z h1 h2 => by omega⟩

theorem C47_history_state {κ : Type} (l : List (CtxCall κ)) : ∀ (p : Nat) (rm : RM) (cc : κ) (a b : Int),
    ∃ cc', l.foldl CtxCall.run (Ctx.new p rm cc a b) =
      Ctx.new (lastP p l) (lastRm rm l) cc' (lastEmin a l) (lastEmax b l) := by
  induction l with
  | nil => intro p rm cc a b; exact ⟨cc, rfl⟩
  | cons c l ih =>
    intro p rm cc a b
    cases c with
    | precision q =>
      simp only [List.foldl_cons, lastP, lastRm, lastEmin, lastEmax, List.filterMap_cons,
        List.getLastD_cons]
      exact ih q rm cc a b
    | roundingMode q =>
      simp only [List.foldl_cons, lastP, lastRm, lastEmin, lastEmax, List.filterMap_cons,
        List.getLastD_cons]
      exact ih p q cc a b
    | consts q =>
      simp only [List.foldl_cons, lastP, lastRm, lastEmin, lastEmax, List.filterMap_cons,
        List.getLastD_cons]
      exact ih p rm q a b
    | emin q =>
      simp only [List.foldl_cons, lastP, lastRm, lastEmin, lastEmax, List.filterMap_cons,
        List.getLastD_cons]
      exact ih p rm cc q b
    | emax q =>
      simp only [List.foldl_cons, lastP, lastRm, lastEmin, lastEmax, List.filterMap_cons,
        List.getLastD_cons]
      exact ih p rm cc a q

/-- After any sequence of setter calls the limits are the admissible values closest to the last
requests, so they are inside the supported range; precision and rounding mode are the last ones set. -/
theorem C47_limits {κ : Type} (p : Nat) (rm : RM) (cc : κ) (a b : Int) (l : List (CtxCall κ)) :
    let c := l.foldl CtxCall.run (Ctx.new p rm cc a b)
    ClosestIn EMIN 0 (lastEmin a l) c.view.emin ∧ ClosestIn 0 EMAX (lastEmax b l) c.view.emax ∧
      c.view.precision = lastP p l ∧ c.view.roundingMode = lastRm rm l := by
  obtain ⟨cc', h⟩ := C47_history_state l p rm cc a b
  dsimp only
  rw [h]
  exact ⟨clampE_closest (by decide) _, clampE_closest (by decide) _, rfl, rfl⟩

/-- A setting inside the range is taken as it is. -/
theorem C47_in_range {κ : Type} (c : Ctx κ) (e : Int) :
    (EMIN ≤ e → e ≤ 0 → (c.setEmin e).view.emin = e) ∧
      (0 ≤ e → e ≤ EMAX → (c.setEmax e).view.emax = e) := by
  constructor <;> intro h1 h2
  · show clampE e EMIN 0 = e
    unfold clampE; split <;> [omega; (split <;> omega)]
  · show clampE e 0 EMAX = e
    unfold clampE; split <;> [omega; (split <;> omega)]

/-- `clone` keeps precision, rounding mode and limits; the clone fails only when the new constants
cache cannot be allocated. `to_raw_parts` gives the settings back. -/
theorem C47_clone {κ : Type} (c : Ctx κ) (cc : κ) :
    (∃ d, c.clone (.ok cc) = .ok d ∧ d.view = c.view ∧ d.toRawParts = (c.p, c.rm, cc, c.emin, c.emax)) ∧
      ∀ e, c.clone (.error e) = .error e :=
  ⟨⟨_, rfl, rfl, rfl⟩, fun _ => rfl⟩

/-- Tuples used as contexts: the three element tuple has the full exponent range, the five element
tuple behaves like the context made from its elements. -/
theorem C47_tuples {κ : Type} (p : Nat) (rm : RM) (cc : κ) (a b : Int) :
    tuple5View (p, rm, cc, a, b) = (Ctx.new p rm cc a b).view ∧
      ClosestIn EMIN 0 a (tuple5View (p, rm, cc, a, b)).emin ∧
      ClosestIn 0 EMAX b (tuple5View (p, rm, cc, a, b)).emax ∧
      tuple3View (p, rm, cc) = ⟨p, rm, EMIN, EMAX⟩ :=
  ⟨rfl, clampE_closest (by decide) _, clampE_closest (by decide) _, rfl⟩

example : ([CtxCall.emin (-5), .precision 7, .emax (-3), .emin 12, .consts ()].foldl CtxCall.run
    (Ctx.new 64 .up () (-100) 100)).toRawParts = (7, .up, (), 0, 0) := by decide

end AF
