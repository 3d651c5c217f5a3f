import Verif.Model.FunctionTraits

/-!
# C80: traits of function types

* `assemble_traits`: taking a function type apart and assembling it gives the type back.
* `withReturn_traits`, `setNoexcept_traits`, `setVariadic_traits`, `modifyClass_traits`: changing one
  property changes that property and no other.
* `member_*`: the member qualifiers.
* `asFree_member`, `asMemberOf_free`, `asMemberOf_member`, `classOf_member`: conversions.
* `free_callable`: what can be called like a function is a free function, unless it is volatile;
  `free_pointer_pointer`, `withReturn_pointer`, `volatile_not_function`, `member_addRvalue_lvalue`:
  where the code does not do what its comments say.
-/

namespace Actl.FnTraits

variable (callOp : Nat → Option Ty)

/-- A function type as C++ writes it, without pointers, references or qualifiers around it. -/
inductive IsFn : Ty → Prop
  | fn (ret ps va ne) : IsFn (.fn ret ps va ne)
  | mem (ret cls q ps va ne) : IsFn (.mem ret cls q ps va ne)

/-- Pointers, references and `const` around a type. -/
inductive Around : Ty → Ty → Prop
  | refl (t) : Around t t
  | ptr {t u} (h : Around t u) : Around t (.ptr u)
  | const {t u} (h : Around t u) : Around t (.const u)
  | lref {t u} (h : Around t u) : Around t (.lref u)
  | rref {t u} (h : Around t u) : Around t (.rref u)

/-- Every free or member function is one with something around it. -/
theorem traits_core : ∀ (t : Ty) (r : Traits), traits callOp t = some r → r.category ≠ .object →
    ∃ u, IsFn u ∧ Around u t ∧ traits callOp u = some r
  | .obj n q, r, h, ho => by
    rw [traits] at h
    split at h
    · simp only [Option.some.injEq] at h
      subst h
      exact absurd rfl ho
    · exact absurd h (by simp)
  | .fn .., r, h, _ => ⟨_, .fn .., .refl _, h⟩
  | .mem .., r, h, _ => ⟨_, .mem .., .refl _, h⟩
  | .ptr t, r, h, ho => by
    rw [traits] at h
    split at h
    · rename_i r' hr
      split_ifs at h
      obtain rfl : r' = r := by simpa using h
      obtain ⟨u, h1, h2, h3⟩ := traits_core t r' hr ho
      exact ⟨u, h1, h2.ptr, h3⟩
    · exact absurd h (by simp)
  | .const t, r, h, ho => by
    rw [traits] at h
    split at h
    · rename_i r' hr
      split_ifs at h
      obtain rfl : r' = r := by simpa using h
      obtain ⟨u, h1, h2, h3⟩ := traits_core t r' hr ho
      exact ⟨u, h1, h2.const, h3⟩
    · exact absurd h (by simp)
  | .volatile t, r, h, _ => by rw [traits] at h; exact absurd h (by simp)
  | .lref t, r, h, ho => by
    rw [traits] at h
    obtain ⟨u, h1, h2, h3⟩ := traits_core t r h ho
    exact ⟨u, h1, h2.lref, h3⟩
  | .rref t, r, h, ho => by
    rw [traits] at h
    obtain ⟨u, h1, h2, h3⟩ := traits_core t r h ho
    exact ⟨u, h1, h2.rref, h3⟩

/-- **C80.** A function type is determined by its traits: assembling them gives it back. -/
theorem assemble_traits (t : Ty) (h : IsFn t) :
    ∃ r, traits callOp t = some r ∧ assemble r.category r.ret r.unique r.va r.ne = some t := by
  cases h with
  | fn ret ps va ne => exact ⟨_, rfl, rfl⟩
  | mem ret cls q ps va ne => exact ⟨_, rfl, rfl⟩

/-- **C80.** Different function types have different traits. -/
theorem traits_injective (t u : Ty) (ht : IsFn t) (hu : IsFn u)
    (h : traits callOp t = traits callOp u) : t = u := by
  obtain ⟨r, h1, h2⟩ := assemble_traits callOp t ht
  obtain ⟨s, g1, g2⟩ := assemble_traits callOp u hu
  rw [h1, g1, Option.some.injEq] at h
  subst h
  rw [h2, Option.some.injEq] at g2
  exact g2

/-- What assembling the changed traits of a function gives. -/
theorem traits_assembled (t : Ty) (r : Traits) (h : traits callOp t = some r)
    (ho : r.category ≠ .object) (ret : Ty) (va ne : Bool) :
    ∃ t', assemble r.category ret r.unique va ne = some t' ∧ IsFn t' ∧
      traits callOp t' = some { r with ret := ret, va := va, ne := ne } := by
  obtain ⟨u, hu, _, hr⟩ := traits_core callOp t r h ho
  cases hu with
  | fn ret' ps va' ne' =>
    rw [traits, Option.some.injEq] at hr
    subst hr
    exact ⟨_, rfl, .fn .., rfl⟩
  | mem ret' cls q ps va' ne' =>
    rw [traits, Option.some.injEq] at hr
    subst hr
    exact ⟨_, rfl, .mem .., rfl⟩

/-- **C80.** Changing the return type of a free or member function changes nothing else. -/
theorem withReturn_traits (t ret : Ty) (r : Traits) (h : traits callOp t = some r)
    (ho : r.category ≠ .object) :
    ∃ t', withReturn callOp t ret = some t' ∧ traits callOp t' = some { r with ret := ret } := by
  obtain ⟨t', h1, _, h2⟩ := traits_assembled callOp t r h ho ret r.va r.ne
  exact ⟨t', by simp [withReturn, h, h1], by simpa using h2⟩

/-- **C80.** Adding or removing `noexcept` changes nothing else. -/
theorem setNoexcept_traits (t : Ty) (b : Bool) (r : Traits) (h : traits callOp t = some r)
    (ho : r.category ≠ .object) :
    ∃ t', setNoexcept callOp t b = some t' ∧ traits callOp t' = some { r with ne := b } := by
  obtain ⟨t', h1, _, h2⟩ := traits_assembled callOp t r h ho r.ret r.va b
  exact ⟨t', by simp [setNoexcept, h, h1], by simpa using h2⟩

/-- **C80.** Adding or removing variadic arguments changes nothing else. -/
theorem setVariadic_traits (t : Ty) (b : Bool) (r : Traits) (h : traits callOp t = some r)
    (ho : r.category ≠ .object) :
    ∃ t', setVariadic callOp t b = some t' ∧ traits callOp t' = some { r with va := b } := by
  obtain ⟨t', h1, _, h2⟩ := traits_assembled callOp t r h ho r.ret b r.ne
  exact ⟨t', by simp [setVariadic, h, h1], by simpa using h2⟩

/-- **C80.** A function object has the parameters of its call operator, without the object. -/
theorem object_traits (n : Nat) (q : Qual) (ret : Ty) (cls : Nat) (q' : Qual) (ps : List Ty)
    (va ne : Bool) (h : callOp n = some (.mem ret cls q' ps va ne)) :
    traits callOp (.obj n q) = some ⟨.object, ret, ps, ps, va, ne⟩ := by
  rw [traits, h]
  rfl

/-! ### Member qualifiers -/

/-- **C80.** Changing the qualifiers of a member function, whatever is around its type. -/
theorem modifyClass_member (f : Qual → Qual) (ret : Ty) (cls : Nat) (q : Qual) (ps : List Ty)
    (va ne : Bool) (t : Ty) (h : Around (.mem ret cls q ps va ne) t) (r : Traits)
    (ht : traits callOp t = some r) :
    modifyClass callOp f t = some (.mem ret cls (f q) ps va ne) := by
  have key : ∀ t u, Around u t → ∀ r, traits callOp t = some r → traits callOp u = some r := by
    intro t u hu
    induction hu with
    | refl => exact fun _ => id
    | ptr h ih =>
      intro r hr
      rw [traits] at hr
      split at hr
      · rename_i r' hr'
        split_ifs at hr
        obtain rfl : r' = r := by simpa using hr
        exact ih _ hr'
      · exact absurd hr (by simp)
    | const h ih =>
      intro r hr
      rw [traits] at hr
      split at hr
      · rename_i r' hr'
        split_ifs at hr
        obtain rfl : r' = r := by simpa using hr
        exact ih _ hr'
      · exact absurd hr (by simp)
    | lref h ih => intro r hr; rw [traits] at hr; exact ih _ hr
    | rref h ih => intro r hr; rw [traits] at hr; exact ih _ hr
  have hm := key t _ h r ht
  rw [traits, Option.some.injEq] at hm
  subst hm
  rw [modifyClass, ht]
  rfl

/-- **C80.** `add_member_const_t` and the rest set or clear exactly one qualifier. -/
theorem member_qualifiers (q : Qual) :
    addInnerConst q = { q with const := true } ∧
    removeInnerConst q = { q with const := false } ∧
    addInnerVolatile q = { q with volatile := true } ∧
    removeInnerVolatile q = { q with volatile := false } ∧
    addInnerCv q = { q with const := true, volatile := true } ∧
    removeInnerCv q = { q with const := false, volatile := false } := by
  obtain ⟨c, v, r⟩ := q
  cases c <;> cases v <;> cases r <;> decide

/-- **C80.** The result of copying qualifiers has those of the source, whatever the target had. -/
theorem copyCvref_eq (target source : Qual) : copyCvref target source = source := by
  obtain ⟨c, v, r⟩ := source
  cases c <;> cases v <;> cases r <;> rfl

/-- **C80.** A member function with a reference to its class as the first parameter. -/
theorem asFree_member (ret : Ty) (cls : Nat) (q : Qual) (ps : List Ty) (va ne : Bool) :
    asFree callOp (.mem ret cls q ps va ne) =
      some (.fn ret (.obj cls { q with ref := if q.ref = .rvalue then .rvalue else .lvalue } :: ps)
        va ne) := by
  obtain ⟨c, v, r⟩ := q
  cases r <;> rfl

/-- **C80.** A free function as a member of a class, with the qualifiers given with the class. -/
theorem asMemberOf_free (ret : Ty) (ps : List Ty) (va ne : Bool) (cls : Nat) (q : Qual) :
    asMemberOf callOp (.fn ret ps va ne) cls q = some (.mem ret cls q ps va ne) := rfl

/-- **C80.** A member function as a member of another class keeps its qualifiers. -/
theorem asMemberOf_member (ret : Ty) (cls cls' : Nat) (q q' : Qual) (ps : List Ty) (va ne : Bool) :
    asMemberOf callOp (.mem ret cls q ps va ne) cls' q' = some (.mem ret cls' q ps va ne) := by
  simp [asMemberOf, traits, memTraits, copyCvref_eq, assemble]

/-- **C80.** The class of a member function, without qualifiers. -/
theorem classOf_member (ret : Ty) (cls : Nat) (q : Qual) (ps : List Ty) (va ne : Bool) :
    classOf callOp (.mem ret cls q ps va ne) = some (.obj cls ⟨false, false, .none⟩) := by
  simp [classOf, traits, memTraits]

/-- **C80.** Making a free function a member and free again adds a reference to the class as the
first parameter and nothing else. -/
theorem asFree_asMemberOf (ret : Ty) (ps : List Ty) (va ne : Bool) (cls : Nat) (c v : Bool) :
    (asMemberOf callOp (.fn ret ps va ne) cls ⟨c, v, .none⟩).bind (asFree callOp) =
      some (.fn ret (.obj cls ⟨c, v, .lvalue⟩ :: ps) va ne) := by
  simp [asMemberOf, traits, assemble, asFree, memTraits, classT]

/-! ### What counts as a free function -/

/-- Types that can be called like a function: a function, a pointer to one, possibly qualified, or a
reference to one of these. -/
inductive CallableFree : Ty → Prop
  | fn (ret ps va ne) : CallableFree (.fn ret ps va ne)
  | ptr (ret ps va ne) : CallableFree (.ptr (.fn ret ps va ne))
  | const {t} (h : CallableFree t) : CallableFree (.const t)
  | lref {t} (h : CallableFree t) : CallableFree (.lref t)
  | rref {t} (h : CallableFree t) : CallableFree (.rref t)

/-- **C80.** Functions, pointers to functions, and references to either are free functions. -/
theorem free_callable (t : Ty) (h : CallableFree t) :
    ∃ r, traits callOp t = some r ∧ r.category = .free := by
  induction h with
  | fn ret ps va ne => exact ⟨_, rfl, rfl⟩
  | ptr ret ps va ne => exact ⟨⟨.free, ret, ps, ps, va, ne⟩, by simp [traits], rfl⟩
  | const h ih =>
    obtain ⟨r, h1, h2⟩ := ih
    exact ⟨r, by simp [traits, h1, h2], h2⟩
  | lref h ih => exact ih
  | rref h ih => exact ih

/-- **C80, the code is wrong.** A pointer to a pointer to a function, which cannot be called, is a
free function as well. -/
theorem free_pointer_pointer (t : Ty) (h : CallableFree t) :
    ∃ r, traits callOp (.ptr (.ptr t)) = some r ∧ r.category = .free := by
  obtain ⟨r, h1, h2⟩ := free_callable callOp t h
  exact ⟨r, by simp [traits, h1, h2], h2⟩

theorem not_callable_ptr_ptr (t : Ty) : ¬ CallableFree (.ptr (.ptr t)) := by
  intro h
  cases h

/-- **C80, the code is wrong.** "A function with the given return type, but otherwise identical":
the pointer is lost. -/
theorem withReturn_pointer (ret ret' : Ty) (ps : List Ty) (va ne : Bool) :
    withReturn callOp (.ptr (.fn ret ps va ne)) ret' = some (.fn ret' ps va ne) := by
  simp [withReturn, traits, assemble]

/-- **C80, the code is wrong.** "Type qualifiers don't matter for a function": a volatile pointer has
no traits at all. -/
theorem volatile_not_function (t : Ty) : traits callOp (.volatile t) = none := by
  rw [traits]

/-- **C80, the code is wrong.** Adding `&&` to a member function qualified with `&` does nothing. -/
theorem member_addRvalue_lvalue (ret : Ty) (cls : Nat) (c v : Bool) (ps : List Ty) (va ne : Bool) :
    modifyClass callOp addRvalue (.mem ret cls ⟨c, v, .lvalue⟩ ps va ne) =
      some (.mem ret cls ⟨c, v, .lvalue⟩ ps va ne) := by
  simp [modifyClass, traits, memTraits, assemble, addRvalue]

/-! ### Examples -/

/-- `int`. -/
def exInt : Ty := .obj 0 ⟨false, false, .none⟩

/-- `int (C::*)(int&, ...) const&&`. -/
def exMem : Ty := .mem exInt 1 ⟨true, false, .rvalue⟩ [.obj 0 ⟨false, false, .lvalue⟩] true false

example : IsFn exMem := .mem ..

example : ∃ r, traits (fun _ => none) (.lref (.const exMem)) = some r ∧ r.category ≠ .object :=
  ⟨_, rfl, by decide⟩

example : Around exMem (.lref (.const exMem)) := (Around.refl _).const.lref

example : modifyClass (fun _ => none) removeInnerConst (.lref (.const exMem)) =
    some (.mem exInt 1 ⟨false, false, .rvalue⟩ [.obj 0 ⟨false, false, .lvalue⟩] true false) := rfl

example : CallableFree (.lref (.const (.ptr (.fn exInt [exInt] false false)))) :=
  (CallableFree.ptr ..).const.lref

example : ∃ callOp : Nat → Option Ty, callOp 5 = some exMem := ⟨fun _ => some exMem, rfl⟩

end Actl.FnTraits
