import Verif.Model.Lifetime

/-!
# What a stored expression means

In terms of the statements executed so far only: nothing here refers to stored references or states.
-/

namespace Actl.Lifetime

/-- The statement creates an object. -/
def Stmt.making : Stmt → Bool
  | .create _ _ => true
  | .build _ _ _ => true
  | _ => false

/-- Object `o` was created by statement `st` of the program, which has index `t`. -/
def Born (H : List Stmt) (o t : Nat) (st : Stmt) : Prop :=
  H[t]? = some st ∧ st.making = true ∧ (H.take t).countP Stmt.making = o

/-- Object `o` has not been destroyed. -/
def Alive (H : List Stmt) (o : Nat) : Prop := Stmt.destroy o ∉ H

/-- The value of `o` after the statements, if it was `b` at first. -/
def lastValue (o : Nat) : Base → List Stmt → Base
  | b, [] => b
  | b, .assign p v :: H => lastValue o (if p = o then .num v else b) H
  | b, _ :: H => lastValue o b H

/-- The value after all statements of `H` of what was written as `src` at time `t`.
* Numbers and operations of cheap types have the value they had at time `t`.
* Others have their present value, provided that they are still there.
* An expression with a name means what it means itself; if it is not cheap, it has to be still there. -/
inductive Means (H : List Stmt) : Nat → Src → Base → Prop
  | rval {t : Nat} {b : Base} : Means H t (.rval b) b
  | cheapBase {t t' o : Nat} {b : Base} : Born H o t' (.create true b) → t' < t →
      Means H t (.lval o) (lastValue o b (H.take t))
  | costlyBase {t t' o : Nat} {b : Base} : Born H o t' (.create false b) → t' < t → Alive H o →
      Means H t (.lval o) (lastValue o b H)
  | cheapExpr {t t' o : Nat} {op : Src} {args : List Src} {b : Base} : Born H o t' (.build true op args) → t' < t →
      Means H t' (.call op args) b → Means H t (.lval o) b
  | costlyExpr {t t' o : Nat} {op : Src} {args : List Src} {b : Base} : Born H o t' (.build false op args) →
      t' < t → Alive H o → Means H t' (.call op args) b → Means H t (.lval o) b
  | call {t : Nat} {op : Src} {args : List Src} {f : List Int → Int} {vs : List Int} : Means H t op (.fn f) →
      args.length = vs.length →
      (∀ (i : Nat) a v, args[i]? = some a → vs[i]? = some v → Means H t a (.num v)) → Means H t (.call op args) (.num (f vs))

/-- What was written as `src` at time `t` depends on object `o` being there. -/
inductive Refers (H : List Stmt) : Nat → Src → Nat → Prop
  | base {t t' o : Nat} {b : Base} : Born H o t' (.create false b) → t' < t → Refers H t (.lval o) o
  | expr {t t' o : Nat} {op : Src} {args : List Src} : Born H o t' (.build false op args) → t' < t →
      Refers H t (.lval o) o
  | through {t t' o p : Nat} {c : Bool} {op : Src} {args : List Src} : Born H o t' (.build c op args) → t' < t →
      Refers H t' (.call op args) p →
      Refers H t (.lval o) p
  | op {t o : Nat} {op : Src} {args : List Src} : Refers H t op o → Refers H t (.call op args) o
  | arg {t o : Nat} {op a : Src} {args : List Src} : a ∈ args → Refers H t a o → Refers H t (.call op args) o

/-- The value is a number rather than an operation. -/
def Base.isNum : Base → Bool
  | .num _ => true
  | .fn _ => false

/-- Operations are applied to numbers; `true` is the type of what is a number. -/
inductive HasType (H : List Stmt) : Nat → Src → Bool → Prop
  | rval {t : Nat} {b : Base} : HasType H t (.rval b) b.isNum
  | base {t t' o : Nat} {c : Bool} {b : Base} : Born H o t' (.create c b) → t' < t → HasType H t (.lval o) b.isNum
  | expr {t t' o : Nat} {c ty : Bool} {op : Src} {args : List Src} : Born H o t' (.build c op args) → t' < t →
      HasType H t' (.call op args) ty →
      HasType H t (.lval o) ty
  | call {t : Nat} {op : Src} {args : List Src} : HasType H t op false → (∀ a ∈ args, HasType H t a true) →
      HasType H t (.call op args) true

end Actl.Lifetime
