import Verif.Model.Ids

/-! What programs that add edges and assign to their bundles should do. -/

namespace Actl.Storage

open Actl.Ids

variable {V β S H C : Type}

/-- A step of a program: a call of `try_add_edge`, or an assignment to the bundle of the edge which the `j`-th
call returned. -/
inductive BOp (V β : Type)
  | add (u v : V) (b : β)
  | write (j : Nat) (x : β)

/-- The program run; `as` are the edges returned so far (nothing for a refused call: the step is skipped). -/
def runOps (add : S → V × V × β → Option (S × Option H)) (write : S → H → β → Option S) :
    S → List (Option H) → List (BOp V β) → Option (S × List (Option H))
  | s, as, [] => some (s, as)
  | s, as, .add u v b :: ops =>
    match add s (u, v, b) with
    | none => none
    | some (s, a) => runOps add write s (as ++ [a]) ops
  | s, as, .write j x :: ops =>
    match as[j]? with
    | none => none
    | some none => runOps add write s as ops
    | some (some h) =>
      match write s h x with
      | none => none
      | some s => runOps add write s as ops

/-- The calls of `try_add_edge` of the program, each with the bundle last assigned instead of its own; nothing
if it assigns to the edge of a call not made yet. -/
def asAdded : List (V × V × β) → List (BOp V β) → Option (List (V × V × β))
  | calls, [] => some calls
  | calls, .add u v b :: ops => asAdded (calls ++ [(u, v, b)]) ops
  | calls, .write j x :: ops =>
    if j < calls.length then asAdded (calls.modify j fun c => (c.1, c.2.1, x)) ops else none

/-- The order in which a hashed container iterates is decided by the keys. -/
def ByKey {α κ : Type} (key : α → κ) (ord : Order α) : Prop :=
  ∀ n l (φ : Nat × α → α), (∀ p, key (φ p) = key p.2) →
    ord.f n (l.map fun p => (p.1, φ p)) = (ord.f n l).map fun p => (p.1, φ p)

end Actl.Storage
