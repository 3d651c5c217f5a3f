import Verif.Model.Match
import Mathlib.Tactic.Common

/-!
# C85: invoking elements of a tuple
-/

namespace Actl.Match

/-- The argument as an lvalue, as a named parameter is. -/
def named (a : Arg) : Arg := ⟨a.ty, ⟨true, a.cat.const⟩⟩

/-- Callable alike on lvalues and rvalues: no overload has a reference qualifier. -/
def Plain (f : Fn) : Prop := ∀ o ∈ f, o.ref = .none

/-- No parameter is a reference to a type that is not const, nor `auto&`. -/
def NoLref (f : Fn) : Prop := ∀ o ∈ f, ∀ p ∈ o.params, p ≠ .auto .lref ∧ ∀ t, p ≠ .of t .lref

/-! ### What is invocable

The rules of the language, stated apart from the functions of the model. -/

/-- [dcl.init.ref]: a parameter that is an object takes any expression of its type; a reference never drops
a `const`; lvalue references bind to lvalues, and to rvalues if const; rvalue references bind to rvalues. -/
inductive Binds : Form → Cat → Prop
  | value (c : Cat) : Binds .value c
  | lref : Binds .lref ⟨true, false⟩
  | clref (c : Cat) : Binds .clref c
  | rref : Binds .rref ⟨false, false⟩
  | crref (const : Bool) : Binds .crref ⟨false, const⟩

/-- Parameters with deduced types, [temp.deduct.call]: `auto&` is a reference to const for a const
argument, which then may be an rvalue. -/
inductive Takes : Param → Arg → Prop
  | of {ty : Nat} {form : Form} {c : Cat} (h : Binds form c) : Takes (.of ty form) ⟨ty, c⟩
  | auto {ty : Nat} {form : Form} {c : Cat} (h : Binds form c) : Takes (.auto form) ⟨ty, c⟩
  | autoConst {ty : Nat} {lv : Bool} : Takes (.auto .lref) ⟨ty, ⟨lv, true⟩⟩
  | any (a : Arg) : Takes .any a

/-- [over.match.funcs]: the object takes part like an argument; `&` and `const &` of a member function bind
like a reference, no qualifier takes lvalues and rvalues alike. -/
inductive SelfOk : Overload → Cat → Prop
  | none {ps : List Param} {k : Bool} {c : Cat} (h : c.const = true → k = true) : SelfOk ⟨ps, k, .none⟩ c
  | lvalue {ps : List Param} {c : Cat} (h : Binds .lref c) : SelfOk ⟨ps, false, .lvalue⟩ c
  | clvalue {ps : List Param} {c : Cat} (h : Binds .clref c) : SelfOk ⟨ps, true, .lvalue⟩ c
  | rvalue {ps : List Param} {c : Cat} (h : Binds .rref c) : SelfOk ⟨ps, false, .rvalue⟩ c
  | crvalue {ps : List Param} {c : Cat} (h : Binds .crref c) : SelfOk ⟨ps, true, .rvalue⟩ c

theorem binds_iff (f : Form) (c : Cat) : f.binds c = true ↔ Binds f c := by
  obtain ⟨l, k⟩ := c
  constructor
  · cases f <;> cases l <;> cases k <;> simp [Form.binds] <;> constructor
  · rintro (_ | _ | _ | _ | _) <;> simp [Form.binds]

theorem takes_iff (p : Param) (a : Arg) : p.takes a = true ↔ Takes p a := by
  obtain ⟨t, l, k⟩ := a
  cases p with
  | any => simp [Param.takes, Takes.any]
  | of ty f =>
    simp only [Param.takes, Bool.and_eq_true, beq_iff_eq, binds_iff]
    exact ⟨fun ⟨h1, h2⟩ => by subst h1; exact .of h2, fun h => by cases h with | of h => exact ⟨rfl, h⟩⟩
  | auto f =>
    have key : ∀ f, f ≠ .lref → (f.binds ⟨l, k⟩ = true ↔ Takes (.auto f) ⟨t, l, k⟩) := by
      intro f hf
      rw [binds_iff]
      exact ⟨.auto, fun h => by cases h with
        | auto h => exact h
        | autoConst => exact absurd rfl hf⟩
    cases f with
    | lref =>
      simp only [Param.takes]
      cases l <;> cases k
      · simp only [Bool.or_false, Bool.false_eq_true, false_iff]
        intro h; cases h with | auto h => cases h
      · simpa using Takes.autoConst
      · simpa using Takes.auto Binds.lref
      · simpa using Takes.autoConst
    | value => simpa [Param.takes] using key .value (by decide)
    | clref => simpa [Param.takes] using key .clref (by decide)
    | rref => simpa [Param.takes] using key .rref (by decide)
    | crref => simpa [Param.takes] using key .crref (by decide)

theorem selfOk_iff (o : Overload) (c : Cat) : o.selfOk c = true ↔ SelfOk o c := by
  obtain ⟨ps, k, r⟩ := o
  obtain ⟨l, d⟩ := c
  constructor
  · intro h
    cases r with
    | none => exact .none (by simp [Overload.selfOk] at h; intro hd; simpa [show d = true from hd] using h)
    | lvalue =>
      cases k <;> cases l <;> cases d <;> simp [Overload.selfOk] at h <;>
        first | exact .lvalue .lref | exact .clvalue (.clref _)
    | rvalue =>
      cases k <;> cases l <;> cases d <;> simp [Overload.selfOk] at h <;>
        first | exact .rvalue .rref | exact .crvalue (.crref _)
  · intro h
    cases h with
    | none h => cases d <;> simp_all [Overload.selfOk]
    | lvalue h => cases h; rfl
    | clvalue h => simp [Overload.selfOk]
    | rvalue h => cases h; rfl
    | crvalue h => cases h; simp [Overload.selfOk]

/-- An element is invocable just if one of its overloads takes the object and the arguments one by one. -/
theorem invocable_iff (f : Fn) (self : Cat) (args : List Arg) :
    invocable f self args = true ↔ ∃ o ∈ f, SelfOk o self ∧ List.Forall₂ Takes o.params args := by
  have key : ∀ (ps : List Param) (as : List Arg),
      (ps.length == as.length && (ps.zip as).all fun p => p.1.takes p.2) = true ↔
        List.Forall₂ Takes ps as := by
    intro ps
    induction ps with
    | nil => intro as; cases as with
      | nil => simp
      | cons a as => simpa using fun h => by cases h
    | cons p ps ih =>
      intro as
      cases as with
      | nil => simpa using fun h => by cases h
      | cons a as =>
        rw [List.forall₂_cons, ← ih as, ← takes_iff]
        simp only [List.length_cons, List.zip_cons_cons, List.all_cons, Bool.and_eq_true, beq_iff_eq,
          Nat.add_right_cancel_iff]
        tauto
  simp only [invocable, List.any_eq_true]
  refine exists_congr fun o => and_congr_right fun _ => ?_
  rw [Overload.viable, Bool.and_assoc, Bool.and_eq_true, selfOk_iff, key]

example : ∃ o ∈ ([⟨[.of 0 .clref, .auto .lref], true, .lvalue⟩] : Fn), SelfOk o ⟨false, true⟩ ∧
    List.Forall₂ Takes o.params [⟨0, ⟨false, false⟩⟩, ⟨7, ⟨true, true⟩⟩] :=
  (invocable_iff _ _ _).1 (by decide +kernel)

/-! ### The first -/

theorem invocable_plain {f : Fn} (h : Plain f) (t : Cat)
    (hc : t.const = false ∨ ∀ o ∈ f, o.const = true) (args : List Arg) :
    invocable f ⟨false, false⟩ args = invocable f t args := by
  unfold invocable
  apply Bool.eq_iff_iff.mpr
  simp only [List.any_eq_true]
  constructor
  · rintro ⟨o, ho, hv⟩
    refine ⟨o, ho, ?_⟩
    simp only [Overload.viable, Overload.selfOk, h o ho] at hv ⊢
    rcases hc with hc | hc
    · simpa [hc] using hv
    · simpa [hc o ho] using hv
  · rintro ⟨o, ho, hv⟩
    refine ⟨o, ho, ?_⟩
    simp only [Overload.viable, Overload.selfOk, h o ho] at hv ⊢
    simp only [Bool.and_true, Bool.not_false, Bool.or_true, Bool.true_and, Bool.and_eq_true] at hv ⊢
    exact ⟨hv.1.2, hv.2⟩

/-- Whatever the tuple and the functions: what is invoked is invocable, and nothing before it is invocable as an
rvalue that is not const. -/
theorem invokeFirst_sound {t : Cat} {fs : List Fn} {args : List Arg} {i : Nat}
    (h : invokeFirst t fs args = some i) :
    (∃ f, fs[i]? = some f ∧ invocable f t args = true) ∧
      ∀ j f, j < i → fs[j]? = some f → invocable f ⟨false, false⟩ args = false := by
  unfold invokeFirst at h
  cases hf : findFirst fs args with
  | none => rw [hf] at h; cases h
  | some k =>
    rw [hf] at h
    simp only [Option.bind_some] at h
    cases hk : fs[k]? with
    | none => rw [hk] at h; cases h
    | some f =>
      rw [hk] at h
      simp only [Option.bind_some] at h
      split_ifs at h with hv
      cases h
      refine ⟨⟨f, hk, hv⟩, fun j g hj hgj => ?_⟩
      unfold findFirst at hf
      simp only at hf
      split_ifs at hf
      cases hf
      obtain ⟨hjl, rfl⟩ := List.getElem?_eq_some_iff.mp hgj
      simpa using List.not_of_lt_findIdx hj

/-- If the tuple is not const, or all its elements can be called when const, and no element has
reference qualifiers: the first element that is invocable is invoked; if there is none, the call does
not compile. -/
theorem invokeFirst_spec (t : Cat) (fs : List Fn) (args : List Arg) (hp : ∀ f ∈ fs, Plain f)
    (hc : t.const = false ∨ ∀ f ∈ fs, ∀ o ∈ f, o.const = true) :
    (∀ i, invokeFirst t fs args = some i ↔
      (∃ f, fs[i]? = some f ∧ invocable f t args = true) ∧
        ∀ j f, j < i → fs[j]? = some f → invocable f t args = false) ∧
    (invokeFirst t fs args = none ↔ ∀ f ∈ fs, invocable f t args = false) := by
  have heq : ∀ f ∈ fs, invocable f ⟨false, false⟩ args = invocable f t args := fun f hf =>
    invocable_plain (hp f hf) t (hc.imp id fun h => h f hf) args
  have h1 : ∀ i, invokeFirst t fs args = some i ↔
      (∃ f, fs[i]? = some f ∧ invocable f t args = true) ∧
        ∀ j f, j < i → fs[j]? = some f → invocable f t args = false := by
    intro i
    constructor
    · intro h
      obtain ⟨h1, h2⟩ := invokeFirst_sound h
      exact ⟨h1, fun j f hj hfj => by rw [← heq f (List.mem_of_getElem? hfj)]; exact h2 j f hj hfj⟩
    · rintro ⟨⟨f, hfi, hv⟩, hmin⟩
      obtain ⟨hil, hfi'⟩ := List.getElem?_eq_some_iff.mp hfi
      have hidx : fs.findIdx (fun f => invocable f ⟨false, false⟩ args) = i := by
        rw [List.findIdx_eq hil]
        refine ⟨?_, ?_⟩
        · rw [hfi', heq f (List.mem_of_getElem? hfi)]
          exact hv
        · intro j hj
          rw [heq _ (List.getElem_mem _)]
          exact hmin j _ hj (List.getElem?_eq_getElem _)
      have hff : findFirst fs args = some i := by
        simp only [findFirst, hidx]
        rw [if_pos hil]
      rw [invokeFirst, hff]
      simp only [Option.bind_some, hfi, hv, if_true]
  refine ⟨h1, ?_⟩
  constructor
  · intro hn f hf
    by_contra hv
    have hv : invocable f t args = true := by simpa using hv
    have hlt : fs.findIdx (fun f => invocable f t args) < fs.length :=
      List.findIdx_lt_length.mpr ⟨f, hf, hv⟩
    have := (h1 (fs.findIdx fun f => invocable f t args)).mpr
      ⟨⟨_, List.getElem?_eq_getElem hlt, List.findIdx_getElem (w := hlt)⟩, ?_⟩
    · rw [hn] at this; cases this
    · intro j g hj hg
      obtain ⟨hjl, rfl⟩ := List.getElem?_eq_some_iff.mp hg
      simpa using List.not_of_lt_findIdx hj
  · intro hall
    cases hi : invokeFirst t fs args with
    | none => rfl
    | some i =>
      obtain ⟨⟨f, hfi, hv⟩, _⟩ := (h1 i).mp hi
      rw [hall f (List.mem_of_getElem? hfi)] at hv
      cases hv

/-- In a const tuple an element that can be called only when not const hides all the following ones:
the call does not compile, whichever of them are invocable. -/
theorem invokeFirst_const_fails (lv : Bool) (f : Fn) (fs : List Fn) (args : List Arg)
    (hn : ∀ o ∈ f, o.const = false) (hv : invocable f ⟨false, false⟩ args = true) :
    invocable f ⟨lv, true⟩ args = false ∧ invokeFirst ⟨lv, true⟩ (f :: fs) args = none := by
  have hno : invocable f ⟨lv, true⟩ args = false := by
    unfold invocable
    rw [List.any_eq_false]
    intro o ho
    simp [Overload.viable, Overload.selfOk, hn o ho]
  refine ⟨hno, ?_⟩
  have : findFirst (f :: fs) args = some 0 := by
    simp [findFirst, List.findIdx_cons, hv]
  rw [invokeFirst, this]
  simp [hno]

/-- An element with `operator() &` only is never invoked, not even in a tuple that is an lvalue. -/
theorem invokeFirst_lvalue_fails (t : Cat) (f : Fn) (fs : List Fn) (args : List Arg)
    (hn : ∀ o ∈ f, o.const = false ∧ o.ref = .lvalue) :
    invokeFirst t (f :: fs) args = (invokeFirst t fs args).map (· + 1) := by
  have hno : invocable f ⟨false, false⟩ args = false := by
    unfold invocable
    rw [List.any_eq_false]
    intro o ho
    simp [Overload.viable, Overload.selfOk, (hn o ho).1, (hn o ho).2]
  have hff : findFirst (f :: fs) args = (findFirst fs args).map (· + 1) := by
    simp only [findFirst, List.findIdx_cons, hno, cond_false, List.length_cons, Nat.add_lt_add_iff_right]
    split_ifs <;> rfl
  rw [invokeFirst, invokeFirst, hff]
  cases findFirst fs args with
  | none => rfl
  | some i =>
    simp only [Option.map_some, Option.bind_some, List.getElem?_cons_succ]
    cases fs[i]? with
    | none => rfl
    | some g =>
      simp only [Option.bind_some]
      split_ifs <;> rfl

/-! ### All -/

theorem takes_rvalue {p : Param} {a : Arg} (hl : a.cat.lvalue = true) (h1 : p ≠ .auto .lref)
    (h2 : ∀ t, p ≠ .of t .lref) (h : p.takes a = true) :
    p.takes ⟨a.ty, ⟨false, a.cat.const⟩⟩ = true := by
  cases p with
  | any => rfl
  | of t f =>
    cases f with
    | lref => exact absurd rfl (h2 t)
    | value | clref => simpa [Param.takes, Form.binds] using h
    | rref | crref => simp [Param.takes, Form.binds, hl] at h
  | auto f =>
    cases f with
    | lref => exact absurd rfl h1
    | value | clref => rfl
    | rref | crref => simp [Param.takes, Form.binds, hl] at h

theorem invocable_rvalue {f : Fn} (hf : NoLref f) (t : Cat) (args : List Arg)
    (hl : ∀ a ∈ args, a.cat.lvalue = true) (h : invocable f t args = true) :
    invocable f t (args.map fun a => ⟨a.ty, ⟨false, a.cat.const⟩⟩) = true := by
  unfold invocable at h ⊢
  rw [List.any_eq_true] at h ⊢
  obtain ⟨o, ho, hv⟩ := h
  refine ⟨o, ho, ?_⟩
  simp only [Overload.viable, Bool.and_eq_true, beq_iff_eq, List.length_map] at hv ⊢
  refine ⟨hv.1, ?_⟩
  rw [List.zip_map_right, List.all_map, List.all_eq_true]
  rintro ⟨p, a⟩ hpa
  have hp := (List.of_mem_zip hpa).1
  have ha := (List.of_mem_zip hpa).2
  exact takes_rvalue (hl a ha) (hf o ho p hp).1 (hf o ho p hp).2 (List.all_eq_true.mp hv.2 _ hpa)

/-- Elements are invoked in order and each at most once, only those that are invocable with the
arguments as lvalues; and all those, if they have no parameter of the form `T&` or `auto&`. -/
theorem invokeAll_spec (t : Cat) (fs : List Fn) (args : List Arg) :
    (invokeAll t fs args).Pairwise (· < ·) ∧
    (∀ i ∈ invokeAll t fs args, ∃ f, fs[i]? = some f ∧ invocable f t (args.map named) = true) ∧
    (∀ i f, fs[i]? = some f → NoLref f → invocable f t (args.map named) = true →
      i ∈ invokeAll t fs args) := by
  refine ⟨List.Pairwise.filter _ List.pairwise_lt_range, ?_, ?_⟩
  · intro i hi
    unfold invokeAll at hi
    rw [List.mem_filter, List.mem_range] at hi
    obtain ⟨hil, hv⟩ := hi
    refine ⟨_, List.getElem?_eq_getElem hil, ?_⟩
    unfold invokeIfCan at hv
    rw [Bool.and_eq_true] at hv
    have := hv.2
    rw [List.getD_eq_getElem?_getD, List.getElem?_eq_getElem hil] at this
    exact this
  · intro i f hfi hf hv
    obtain ⟨hil, hfi'⟩ := List.getElem?_eq_some_iff.mp hfi
    unfold invokeAll
    rw [List.mem_filter, List.mem_range]
    refine ⟨hil, ?_⟩
    rw [List.getD_eq_getElem?_getD, hfi]
    unfold invokeIfCan
    rw [Bool.and_eq_true]
    refine ⟨invocable_rvalue hf t _ ?_ hv, hv⟩
    intro a ha
    obtain ⟨b, _, rfl⟩ := List.mem_map.mp ha
    rfl

/-- An element with a parameter `T&` is skipped without a word, whatever the arguments and the rest of
the tuple, although it is invocable with variables of the right types. -/
theorem invokeAll_lref_fails (t : Cat) (pre fs : List Fn) (ty : Nat) (tys : List Nat) (ht : t.const = false)
    (args : List Arg) (ha : args.map Arg.ty = ty :: tys) (hc : ∀ a ∈ args, a.cat.const = false) :
    let f : Fn := [⟨(ty :: tys).map fun x => .of x .lref, false, .none⟩]
    invocable f t (args.map named) = true ∧ pre.length ∉ invokeAll t (pre ++ f :: fs) args := by
  intro f
  constructor
  · simp only [f, invocable, List.any_cons, List.any_nil, Bool.or_false, Overload.viable, Overload.selfOk,
      ht, Bool.not_false, Bool.or_true, Bool.true_and, Bool.and_true, ← ha, List.length_map, beq_self_eq_true,
      List.zip_map', List.map_map]
    rw [List.all_map, List.all_eq_true]
    intro a haa
    simp [Param.takes, Form.binds, named, hc a haa]
  · intro hm
    unfold invokeAll at hm
    rw [List.mem_filter] at hm
    have h2 := hm.2
    rw [List.getD_eq_getElem?_getD, List.getElem?_append_right (Nat.le_refl _), Nat.sub_self] at h2
    simp only [List.getElem?_cons_zero, Option.getD_some] at h2
    unfold invokeIfCan at h2
    rw [Bool.and_eq_true] at h2
    have h3 := h2.1
    cases args with
    | nil => cases ha
    | cons a args =>
      simp [f, invocable, Overload.viable, Param.takes, Form.binds] at h3

/-! ### Examples -/

/-- The test of the library: `int const&`, and `int&&`, `byte const&`, `byte&&`. -/
def intCref : Fn := [⟨[.of 0 .clref], true, .none⟩]
def other : Fn := [⟨[.of 0 .rref], true, .none⟩, ⟨[.of 1 .clref], true, .none⟩, ⟨[.of 1 .rref], true, .none⟩]

example : invokeFirst ⟨true, true⟩ [intCref, other] [⟨0, ⟨false, false⟩⟩] = some 0 := by decide +kernel
example : invokeFirst ⟨true, true⟩ [intCref, other] [⟨1, ⟨true, true⟩⟩] = some 1 := by decide +kernel
example : invokeFirst ⟨true, true⟩ [intCref, other] [⟨2, ⟨true, true⟩⟩] = none := by decide +kernel
example : invokeAll ⟨true, false⟩ [intCref, other, intCref] [⟨0, ⟨false, false⟩⟩] = [0, 2] := by decide +kernel
/-- A mutable function hides a const one in a const tuple. -/
example : invokeFirst ⟨true, true⟩ [[⟨[.any], false, .none⟩], intCref] [⟨0, ⟨false, false⟩⟩] = none ∧
    invocable intCref ⟨true, true⟩ [⟨0, ⟨false, false⟩⟩] = true := by decide +kernel
/-- A function of `int&` is not called with an `int` variable. -/
example : invokeAll ⟨true, false⟩ [[⟨[.of 0 .lref], false, .none⟩]] [⟨0, ⟨true, false⟩⟩] = [] := by
  decide +kernel

end Actl.Match
