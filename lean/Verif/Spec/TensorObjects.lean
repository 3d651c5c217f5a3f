import Verif.Spec.Tensor

/-!
What programs with tensors mean.  A tensor has contents: a function from index tuples to values, where no value means
not initialised.  Contents have an identity (the place in a list), which a view remembers together with the leading indices
it was taken at.  Small tensors with all dimensions in the type keep their contents in themselves; the others hold
contents that a move or a swap takes to another tensor.
-/

namespace Actl.TensorObj

open Actl.Tensor (volume)

/-- The types `tensor_fixed<T, Ds...>`, `tensor<T, N>` and `tensor<T>`. -/
inductive Ty
  | fixed (ds : List Nat)
  | rank (n : Nat)
  | dynamic
deriving DecidableEq, Repr

/-- What a tensor is constructed with besides the dimensions. -/
inductive Init (α : Type)
  | nothing
  | value (x : α)
  | range (xs : List α)

/-- A tensor or a view, numbered in the order of creation. -/
inductive Handle
  | obj (x : Nat)
  | view (v : Nat)
deriving DecidableEq, Repr

/-- Statements. -/
inductive Stmt (α : Type)
  | make (ty : Ty) (dims : List Nat) (init : Init α)
  | copy (x : Nat)                          -- a new tensor, a copy of `x`
  | move (x : Nat)                          -- a new tensor, moved from `x`
  | assign (x y : Nat)                      -- `x = std::move(y)`
  | swap (x y : Nat)
  | destroy (x : Nat)
  | view (h : Handle) (is : List Nat)       -- a view of `h[is[0]][is[1]]...`; without indices of the whole of `h`
  | swapViews (v w : Nat)
  | write (h : Handle) (is : List Nat) (a : α)   -- `h(is...) = a`
  | read (h : Handle) (is : List Nat)
  | dims (h : Handle)
  | elements (h : Handle)                   -- iteration from `begin()` to `end()`

/-- What a statement shows. -/
inductive Obs (α : Type)
  | value (a : α)
  | dims (ds : List Nat) (size : Nat) (empty : Bool)
  | elements (as : List α)
deriving DecidableEq, Repr

/-- All the index tuples, the last index varying fastest. -/
def tuples : List Nat → List (List Nat)
  | [] => [[]]
  | d :: ds => (List.range d).flatMap fun i => (tuples ds).map (i :: ·)

/-- One index for every dimension, each smaller than the dimension. -/
def fits : List Nat → List Nat → Bool
  | [], [] => true
  | d :: ds, i :: is => decide (i < d) && fits ds is
  | _, _ => false

/-- Whether the contents are kept in the object. -/
def Ty.small : Ty → Bool
  | .fixed ds => decide (volume ds ≤ 16)
  | _ => false

/-- Whether the dimensions are in the type. -/
def Ty.static : Ty → Bool
  | .fixed _ => true
  | _ => false

/-- Whether a tensor of a type can have the dimensions. -/
def Ty.Admits : Ty → List Nat → Bool
  | .fixed ds, dims => decide (dims = ds)
  | .rank n, dims => decide (0 < n ∧ dims.length = n)
  | .dynamic, _ => true

structure Contents (α : Type) where
  dims : List Nat
  val : List Nat → Option α

/-- `contents = none`: moved from. -/
structure SObj where
  ty : Ty
  contents : Option Nat
deriving DecidableEq, Repr

/-- `fixed`: all the dimensions are in the type, which subscripts need. -/
structure SView where
  contents : Nat
  lead : List Nat
  fixed : Bool
deriving DecidableEq, Repr

structure SState (α : Type) where
  objs : List (Option SObj)
  mem : List (Option (Contents α))
  views : List SView

variable {α : Type}

/-- A tensor as a view of itself. -/
def SState.find (s : SState α) : Handle → Option SView
  | .obj x => do
    let o ← (← s.objs[x]?)
    let c ← o.contents
    pure ⟨c, [], o.ty.static⟩
  | .view v => s.views[v]?

/-- A tensor or a view that can be used, and the contents. -/
def SState.resolve (s : SState α) (h : Handle) : Option (SView × Contents α) := do
  let w ← s.find h
  let k ← (← s.mem[w.contents]?)
  pure (w, k)

/-- Initial values. -/
def initial (dims : List Nat) : Init α → Option (List Nat → Option α)
  | .nothing => some fun _ => none
  | .value x => some fun _ => some x
  | .range xs => if xs.length = volume dims then some fun is => xs[(tuples dims).idxOf is]? else none

/-- One statement; `none`: not allowed. -/
def SState.step (s : SState α) : Stmt α → Option (SState α × Option (Obs α))
  | .make ty dims i =>
    if ty.Admits dims ∧ volume dims < 2 ^ 64 ∧ dims.all (· < 2 ^ 64) then
      (initial dims i).map fun f =>
        ({ s with objs := s.objs ++ [some ⟨ty, some s.mem.length⟩], mem := s.mem ++ [some ⟨dims, f⟩] }, none)
    else none
  | .copy x => do
    let o ← (← s.objs[x]?)
    let c ← o.contents
    let k ← (← s.mem[c]?)
    if o.ty.small then
      pure ({ s with objs := s.objs ++ [some ⟨o.ty, some s.mem.length⟩], mem := s.mem ++ [some k] }, none)
    else none
  | .move x => do
    let o ← (← s.objs[x]?)
    let c ← o.contents
    let k ← (← s.mem[c]?)
    if o.ty.small then
      pure ({ s with objs := s.objs ++ [some ⟨o.ty, some s.mem.length⟩], mem := s.mem ++ [some k] }, none)
    else pure ({ s with objs := s.objs.set x (some ⟨o.ty, none⟩) ++ [some o] }, none)
  | .assign x y => do
    let p ← (← s.objs[x]?)
    let o ← (← s.objs[y]?)
    let c ← o.contents
    let k ← (← s.mem[c]?)
    if p.ty = o.ty ∧ x ≠ y then
      match p.contents with
      | none => pure ({ s with objs := (s.objs.set y (some ⟨o.ty, none⟩)).set x (some o) }, none)
      | some b =>
        if o.ty.small then pure ({ s with mem := s.mem.set b (some k) }, none)
        else pure ({ s with objs := (s.objs.set y (some ⟨o.ty, none⟩)).set x (some o), mem := s.mem.set b none }, none)
    else none
  | .swap x y => do
    let p ← (← s.objs[x]?)
    let o ← (← s.objs[y]?)
    if p.ty = o.ty then
      if o.ty.small then do
        let b ← p.contents
        let c ← o.contents
        let l ← (← s.mem[b]?)
        let k ← (← s.mem[c]?)
        pure ({ s with mem := (s.mem.set b (some k)).set c (some l) }, none)
      else pure ({ s with objs := (s.objs.set x (some o)).set y (some p) }, none)
    else none
  | .destroy x => do
    let o ← (← s.objs[x]?)
    match o.contents with
    | none => pure ({ s with objs := s.objs.set x none }, none)
    | some c => pure ({ s with objs := s.objs.set x none, mem := s.mem.set c none }, none)
  | .view h is => do
    let (w, k) ← s.resolve h
    if is = [] then pure ({ s with views := s.views ++ [⟨w.contents, w.lead, false⟩] }, none)
    else if w.fixed ∧ w.lead.length + is.length < k.dims.length ∧
        fits ((k.dims.drop w.lead.length).take is.length) is then
      pure ({ s with views := s.views ++ [⟨w.contents, w.lead ++ is, true⟩] }, none)
    else none
  | .swapViews v w => do
    let a ← s.views[v]?
    let b ← s.views[w]?
    pure ({ s with views := (s.views.set v b).set w a }, none)
  | .write h is a => do
    let (w, k) ← s.resolve h
    if fits (k.dims.drop w.lead.length) is then
      pure ({ s with
        mem := s.mem.set w.contents (some ⟨k.dims, fun js => if js = w.lead ++ is then some a else k.val js⟩) }, none)
    else none
  | .read h is => do
    let (w, k) ← s.resolve h
    if fits (k.dims.drop w.lead.length) is then (k.val (w.lead ++ is)).map fun a => (s, some (.value a)) else none
  | .dims h => do
    let (w, k) ← s.resolve h
    let ds := k.dims.drop w.lead.length
    pure (s, some (.dims ds (volume ds) (decide (volume ds = 0))))
  | .elements h => do
    let (w, k) ← s.resolve h
    let as ← ((tuples (k.dims.drop w.lead.length)).map fun is => k.val (w.lead ++ is)).mapM id
    pure (s, some (.elements as))

/-- A program: what it shows. -/
def SState.run (s : SState α) : List (Stmt α) → Option (List (Obs α))
  | [] => some []
  | c :: cs => do
    let (s, o) ← s.step c
    let os ← s.run cs
    pure (o.toList ++ os)

def SState.empty : SState α := ⟨[], [], []⟩

end Actl.TensorObj
