import Verif.Model.Parser

/-!
Model of integer input: `io/format/text/parser/{sign,base,digit,uint_simple,integral}.hpp`.
`w` is the width of the integer type, `signed` its signedness.
-/

namespace Actl.IntText

open Actl.Text

/-! ### sign.hpp -/

/-- `sign_parser::parse`, `sign.hpp:18-24`; the state is `negate`. -/
def signParse (signed : Bool) (negate : Bool) : List Byte → Option (Nat × Bool)
  | [] => none
  | c :: _ =>
    if signed && c == lit '-' then some (1, true)
    else some (if c = lit '+' then 1 else 0, negate)

/-- `sign_parser::max_abs`, `sign.hpp:26-34`. -/
def maxAbs (w : Nat) (signed negate : Bool) : Nat :=
  if signed then (2 ^ w - 1) / 2 + (if negate then 1 else 0) else 2 ^ w - 1

/-- `static_cast<Int>` from the unsigned to the signed type of width `w`. -/
def toSigned (w : Nat) (x : Nat) : Int := (x : Int).bmod (2 ^ w)

/-- `sign_parser::value` for integers, `sign.hpp:36-47`: `negate ? ~Int(x - 1) : Int(x)`;
`~y = -y - 1`, and `x - 1` wraps. -/
def signValue (w : Nat) (signed negate : Bool) (x : Nat) : Int :=
  if signed then
    if negate then -(toSigned w ((x + (2 ^ w - 1)) % 2 ^ w)) - 1 else toSigned w x
  else x

/-! ### base.hpp -/

inductive BaseState | empty | zero | done
deriving DecidableEq, Repr

/-- `base_parser`, `base.hpp:14-18`. -/
structure BaseSt where
  state : BaseState
  base : Nat
deriving DecidableEq, Repr

/-- `set_base`, `base.hpp:20-24`. -/
def setBase (base value : Nat) : Nat := if base = 0 then value else base

/-- `parse_base`, `base.hpp:35-44`: result and new base. -/
def parseBase (base : Nat) (c : Byte) : Bool × Nat :=
  if c = lit 'x' ∨ c = lit 'X' then (setBase base 16 == 16, setBase base 16)
  else if c = lit 'b' ∨ c = lit 'B' then (setBase base 2 == 2, setBase base 2)
  else (false, setBase base 8)

/-- `case states::zero:` of `base_parser::parse`, `base.hpp:59-66`, `rest` being `s` from index
`i` on. -/
def baseZero (st : BaseSt) (i : Nat) (rest : List Byte) : Nat × BaseSt :=
  match rest with
  | [] => (i, st)
  | c :: _ =>
    let (ok, b) := parseBase st.base c
    if ok then (i + 1, ⟨.done, b⟩) else (i, ⟨st.state, b⟩)

/-- `base_parser::parse`, `base.hpp:49-67`, with its fall-through; `parse_zero` is
`base.hpp:26-33`. -/
def baseParse (st : BaseSt) (s : List Byte) : Option (Nat × BaseSt) :=
  match st.state with
  | .empty =>
    match s with
    | [] => none
    | c :: rest =>
      if c = lit '0' then some (baseZero ⟨.zero, st.base⟩ 1 rest)
      else some (0, ⟨.done, setBase st.base 10⟩)
  | .zero => some (baseZero st 0 s)
  | .done => some (0, st)

/-! ### digit.hpp, uint_simple.hpp -/

/-- `static_cast<UInt>` of an `int`. -/
def toUInt (w : Nat) (x : Int) : Nat := (x % 2 ^ w).toNat

/-- `to_digit`, `digit.hpp:16-31`, with the kind chosen as in `uint_simple.hpp:53`. -/
def toDigit (w base : Nat) (c : Byte) : Nat :=
  if base ≤ 10 then toUInt w (c.toInt - 48)
  else if isDigit c then toUInt w (c.toInt - 48)
  else if isUpper c then toUInt w (c.toInt - 65 + 10)
  else if isLower c then toUInt w (c.toInt - 97 + 10)
  else 2 ^ w - 1

inductive UintState | empty | ok | overflow
deriving DecidableEq, Repr

/-- `uint_simple_parser`, `uint_simple.hpp:14-22`. -/
structure UintSt where
  state : UintState
  x : Nat
  base : Nat
  max : Nat
deriving DecidableEq, Repr

/-- The loop of `uint_simple.hpp:36-49`: number of consumed characters, and state and `x`
afterwards. -/
def uintLoop (w base max : Nat) : UintState → Nat → List Byte → Nat × UintState × Nat
  | state, x, [] => (0, state, x)
  | state, x, c :: s =>
    let d := toDigit w base c
    if ¬ d < base then (0, state, x)
    else
      let (state', x') :=
        if max / base < x ∨ (max / base = x ∧ max % base < d) then (UintState.overflow, max)
        else (state, (x * base + d) % 2 ^ w)
      let (n, r) := uintLoop w base max state' x' s
      (n + 1, r)

/-- `uint_simple_parser::parse`, `uint_simple.hpp:24-54`. -/
def uintParse (w : Nat) (st : UintSt) (s : List Byte) : Option (Nat × UintSt) :=
  match st.state with
  | .empty =>
    match s with
    | [] => none
    | c :: rest =>
      let x := toDigit w st.base c
      if x < st.base then
        let (n, state, x) := uintLoop w st.base st.max .ok x rest
        some (n + 1, { st with state := state, x := x })
      else some (0, { st with x := x })
  | _ =>
    let (n, state, x) := uintLoop w st.base st.max st.state st.x s
    some (n, { st with state := state, x := x })

/-! ### integral.hpp -/

inductive IntState | empty | sign | value
deriving DecidableEq, Repr

/-- `integral_parser`, `integral.hpp:16-23`. -/
structure IntSt where
  state : IntState
  negate : Bool
  base : BaseSt
  inner : UintSt
deriving DecidableEq, Repr

/-- A freshly constructed `integral_parser{base}` (`inner.base`, `inner.max` are
uninitialized in C++; they are written before their first use). -/
def IntSt.init (base : Nat) : IntSt := ⟨.empty, false, ⟨.empty, base⟩, ⟨.empty, 0, 0, 0⟩⟩

/-- `case states::value`, `integral.hpp:43-46`; `r` is `s.subspan(i)`. -/
def stepValue (w : Nat) (st : IntSt) (i : Nat) (r : List Byte) : Option (Nat × IntSt) :=
  match uintParse w st.inner r with
  | none => none
  | some (k, inner) => some (i + k, { st with inner := inner })

/-- `case states::sign`, `integral.hpp:36-42`, falling through to the next case; `base.ready()`
is `base.hpp:73-75`. -/
def stepSign (w : Nat) (signed : Bool) (st : IntSt) (i : Nat) (r : List Byte) :
    Option (Nat × IntSt) :=
  match baseParse st.base r with
  | none => none
  | some (j, base) =>
    let st := { st with base := base }
    if j = r.length ∨ base.state = .empty then some (i + j, st)
    else
      stepValue w
        { st with state := .value,
                  inner := { st.inner with base := base.base, max := maxAbs w signed st.negate } }
        (i + j) (r.drop j)

/-- `integral_parser::parse`, `integral.hpp:28-47`. -/
def intParse (w : Nat) (signed : Bool) (st : IntSt) (s : List Byte) : Option (Nat × IntSt) :=
  match st.state with
  | .empty =>
    match signParse signed st.negate s with
    | none => none
    | some (i, negate) =>
      let st := { st with negate := negate, state := .sign }
      if i = s.length then some (i, st) else stepSign w signed st i (s.drop i)
  | .sign => stepSign w signed st 0 s
  | .value => stepValue w st 0 s

/-- `integral_parser::ready`, `integral.hpp:49-51`. -/
def intReady (st : IntSt) : Bool :=
  decide (st.inner.state = .ok) ||
    (decide (st.inner.state = .empty) && decide (st.base.state = .zero))

/-- `integral_parser::value`, `integral.hpp:53-55`. -/
def intValue (w : Nat) (signed : Bool) (st : IntSt) : Int :=
  signValue w signed st.negate st.inner.x

/-- Reading an integer (`parser_executor::operator()` with `make_parser`,
`io/format/text/parser/arithmetic.hpp:23-27`): consumed characters and the value stored, if
any. -/
def readInt (w : Nat) (signed : Bool) (base : Nat) (chunks : List (List Byte)) :
    Option (Nat × Option Int) :=
  match Parser.exec (intParse w signed) (.init base) chunks with
  | none => none
  | some (n, st) => some (n, if intReady st then some (intValue w signed st) else none)

end Actl.IntText
