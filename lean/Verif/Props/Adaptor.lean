import Verif.Model.Adaptor
import Verif.Props.Algebra

/-! # C95: iterator adaptors -/

namespace Actl.Adaptor

open Equality (IntTy Elem promote)

variable {α β : Type}

/-! ### What is meant: pointers into the array of the transformed elements -/

/-- A pointer: its array and its position. -/
structure Ptr (β : Type) where
  arr : List β
  pos : Int

/-- Moved by some elements, staying in the array or just past its end. -/
def Ptr.moved (p : Ptr β) (k : Int) : Option (Ptr β) :=
  if 0 ≤ p.pos + k ∧ p.pos + k ≤ p.arr.length then some ⟨p.arr, p.pos + k⟩ else none

/-- The element `k` positions away, if it is in the array. -/
def Ptr.at (p : Ptr β) (k : Int) : Option β :=
  if 0 ≤ p.pos + k then p.arr[(p.pos + k).toNat]? else none

/-- The statements with their meaning for pointers. -/
def ptrStep (s : Nat → Ptr β) : Cmd → Option ((Nat → Ptr β) × Out β)
  | .deref r => ((s r).at 0).map fun x => (s, .value x)
  | .arrow r => ((s r).at 0).map fun x => (s, .value x)
  | .preInc r => ((s r).moved 1).map fun p => (fun q => if q = r then p else s q, .nothing)
  | .postInc d r =>
    ((s r).moved 1).map fun p => (fun q => if q = d then s r else if q = r then p else s q, .nothing)
  | .preDec r => ((s r).moved (-1)).map fun p => (fun q => if q = r then p else s q, .nothing)
  | .postDec d r =>
    ((s r).moved (-1)).map fun p => (fun q => if q = d then s r else if q = r then p else s q, .nothing)
  | .addEq r k => ((s r).moved k.val).map fun p => (fun q => if q = r then p else s q, .nothing)
  | .subEq r k => ((s r).moved (-k.val)).map fun p => (fun q => if q = r then p else s q, .nothing)
  | .plus d r k => ((s r).moved k.val).map fun p => (fun q => if q = d then p else s q, .nothing)
  | .minus d r k => ((s r).moved (-k.val)).map fun p => (fun q => if q = d then p else s q, .nothing)
  | .index r k => ((s r).at k.val).map fun x => (s, .value x)
  | .assign d r => some (fun q => if q = d then s r else s q, .nothing)
  | .difference l r => some (s, .number ((s l).pos - (s r).pos))
  | .equal l r => some (s, .truth (decide ((s l).pos = (s r).pos)))
  | .compare3 l r => some (s, .order (compare (s l).pos (s r).pos))

def ptrRun (s : Nat → Ptr β) : List Cmd → Option (List (Out β))
  | [] => some []
  | c :: cs => (ptrStep s c).bind fun p => (ptrRun p.1 cs).map (p.2 :: ·)

/-- The operators that an iterator of a category has, [iterator.cpp17]. -/
def Allowed : Cat → Cmd → Prop
  | _, .deref _ | _, .arrow _ | _, .preInc _ | _, .postInc _ _ | _, .assign _ _ => True
  | c, .equal _ _ => c ≠ .input
  | c, .preDec _ | c, .postDec _ _ => c = .bidirectional ∨ c = .randomAccess
  | c, _ => c = .randomAccess

/-- An offset whose negation exists in its own type after promotion: of a signed type or a type narrower than
`int`, and not the least of its type; or zero. -/
def Negatable (k : Elem) : Prop :=
  k.val = 0 ∨ ((k.ty.bits < 32 ∨ k.ty.signed = true) ∧ -k.val < 2 ^ ((promote k.ty).bits - 1))

/-- Subtracted offsets are negatable. -/
def Sub : Cmd → Prop
  | .subEq _ k | .minus _ _ k => Negatable k
  | _ => True

/-! ### Simulation -/

private theorem negate_of {k : Elem} (h : Negatable k) : negate k = some (-k.val) := by
  unfold negate
  rcases h with h | ⟨h, h'⟩
  · rw [h]
    split_ifs with h1 h2
    · rfl
    · exact absurd (by positivity) h2
    · simp
  · have hs : (promote k.ty).signed = true := by
      unfold promote
      split_ifs with hb
      · rfl
      · exact h.resolve_left hb
    rw [if_pos hs, if_pos h']

/-- The pointer that an adaptor stands for. -/
private def toPtr (xs : List α) (it : Iter α β) : Ptr β := ⟨xs.map it.fn, it.base⟩

private theorem deref_toPtr (xs : List α) (it : Iter α β) : deref xs it = (toPtr xs it).at 0 := by
  unfold deref ptrRead Ptr.at toPtr
  simp only [add_zero]
  split_ifs
  · simp
  · rfl

private theorem moved_toPtr (xs : List α) (it : Iter α β) (k : Int) :
    ((ptrAdd xs.length it.base k).map fun p => ({ it with base := p } : Iter α β)).map (toPtr xs) =
      (toPtr xs it).moved k := by
  unfold ptrAdd Ptr.moved toPtr
  simp only [List.length_map]
  split_ifs <;> rfl

private theorem index_toPtr (xs : List α) (it : Iter α β) (k : Int) :
    index .randomAccess xs it k = (toPtr xs it).at k := by
  unfold index plus addEq Ptr.at toPtr ptrAdd
  simp only [Cat.isBaseOf, Cat.rank, le_refl, decide_true, if_true]
  by_cases h0 : 0 ≤ it.base + k
  · by_cases h1 : it.base + k ≤ xs.length
    · rw [if_pos ⟨h0, h1⟩, if_pos h0]
      simp only [Option.map_some, Option.bind_some, deref, ptrRead, if_pos h0]
      simp
    · rw [if_neg (fun h => h1 h.2), if_pos h0]
      simp only [Option.map_none, Option.bind_none]
      rw [List.getElem?_eq_none]
      simp; omega
  · rw [if_neg (fun h => h0 h.1), if_neg h0]
    rfl

private theorem set_toPtr (xs : List α) (s : Nat → Iter α β) (r : Nat) (it : Iter α β) :
    (fun q => toPtr xs (set s r it q)) = fun q => if q = r then toPtr xs it else toPtr xs (s q) := by
  funext q
  unfold set
  split_ifs <;> rfl

private theorem map_step {γ : Type} {o : Option γ} {o' : Option (Ptr β)} {g : γ → Ptr β} (h : o.map g = o')
    {xs : List α} {F : γ → (Nat → Iter α β) × Out β} {G : Ptr β → (Nat → Ptr β) × Out β}
    (hFG : ∀ x, ((fun q => toPtr xs ((F x).1 q)), (F x).2) = G (g x)) :
    (o.map F).map (fun p => ((fun q => toPtr xs (p.1 q)), p.2)) = o'.map G := by
  subst h
  cases o with
  | none => rfl
  | some x => simp [hFG]

private theorem step_sim (cat : Cat) (xs : List α) (s : Nat → Iter α β) (c : Cmd) (ha : Allowed cat c) (hs : Sub c) :
    (step cat xs s c).map (fun p => ((fun q => toPtr xs (p.1 q)), p.2)) = ptrStep (fun q => toPtr xs (s q)) c := by
  have ra : ∀ {c : Cat}, c = .randomAccess → Cat.randomAccess.isBaseOf c = true := by rintro _ rfl; rfl
  have bi : ∀ {c : Cat}, c = .bidirectional ∨ c = .randomAccess → Cat.bidirectional.isBaseOf c = true := by
    rintro _ (rfl | rfl) <;> rfl
  cases c with
  | deref r =>
    simp only [step, ptrStep, deref_toPtr]
    cases (toPtr xs (s r)).at 0 <;> rfl
  | arrow r =>
    simp only [step, ptrStep, arrow, deref_toPtr]
    cases (toPtr xs (s r)).at 0 <;> rfl
  | preInc r =>
    simp only [step, ptrStep, preInc]
    exact map_step (moved_toPtr xs (s r) 1) fun x => by simp only [set_toPtr]
  | postInc d r =>
    simp only [step, ptrStep, postInc, preInc, Option.map_map]
    refine (Option.map_map _ _ _).symm.trans ?_
    rw [← moved_toPtr xs (s r) 1]
    cases ptrAdd xs.length (s r).base 1 with
    | none => rfl
    | some p =>
      simp [set_toPtr, Function.comp]
      funext q
      unfold set
      split_ifs <;> rfl
  | preDec r =>
    simp only [step, ptrStep, preDec, if_pos (bi ha)]
    exact map_step (moved_toPtr xs (s r) (-1)) fun x => by simp only [set_toPtr]
  | postDec d r =>
    simp only [step, ptrStep, postDec, preDec, if_pos (bi ha), Option.map_map]
    rw [← moved_toPtr xs (s r) (-1)]
    cases ptrAdd xs.length (s r).base (-1) with
    | none => rfl
    | some p =>
      simp [set_toPtr, Function.comp]
      funext q
      unfold set
      split_ifs <;> rfl
  | addEq r k =>
    simp only [step, ptrStep, addEq, if_pos (ra ha)]
    exact map_step (moved_toPtr xs (s r) k.val) fun x => by simp only [set_toPtr]
  | subEq r k =>
    simp only [step, ptrStep, subEq, negate_of hs, Option.bind_some, addEq, if_pos (ra ha)]
    exact map_step (moved_toPtr xs (s r) (-k.val)) fun x => by simp only [set_toPtr]
  | plus d r k =>
    simp only [step, ptrStep, plus, addEq, if_pos (ra ha)]
    exact map_step (moved_toPtr xs (s r) k.val) fun x => by simp only [set_toPtr]
  | minus d r k =>
    simp only [step, ptrStep, minus, subEq, negate_of hs, Option.bind_some, addEq, if_pos (ra ha)]
    exact map_step (moved_toPtr xs (s r) (-k.val)) fun x => by simp only [set_toPtr]
  | index r k =>
    cases (show cat = .randomAccess from ha)
    simp only [step, ptrStep, index_toPtr]
    cases (toPtr xs (s r)).at k.val <;> rfl
  | assign d r => simp [step, ptrStep, set_toPtr]
  | difference l r => simp [step, ptrStep, difference, ra ha, toPtr]
  | equal l r =>
    have : Cat.forward.isBaseOf cat = true := by
      cases cat with
      | input => exact absurd rfl ha
      | _ => rfl
    simp only [step, ptrStep, equal, this, toPtr, if_true, Option.map_some]
    congr!
  | compare3 l r =>
    have e : ∀ a b : Int, compare (a - b) 0 = compare a b := by
      intro a b
      rcases lt_trichotomy a b with h | h | h
      · rw [compare_lt_iff_lt.2 h, compare_lt_iff_lt.2 (by omega)]
      · rw [compare_eq_iff_eq.2 h, compare_eq_iff_eq.2 (by omega)]
      · rw [compare_gt_iff_gt.2 h, compare_gt_iff_gt.2 (by omega)]
    simp [step, ptrStep, compare3, difference, ra ha, toPtr, e]

/-- Whatever a program does with adaptors that apply functions to the elements of an array, as far as the category
of the adapted iterator allows, it shows what it shows with pointers into arrays of the transformed elements, and
it is undefined only if it is for those. -/
theorem run_eq (cat : Cat) (xs : List α) (s : Nat → Iter α β) (cs : List Cmd) (ha : ∀ c ∈ cs, Allowed cat c)
    (hs : ∀ c ∈ cs, Sub c) :
    run cat xs s cs = ptrRun (fun q => ⟨xs.map (s q).fn, (s q).base⟩) cs := by
  show run cat xs s cs = ptrRun (fun q => toPtr xs (s q)) cs
  induction cs generalizing s with
  | nil => rfl
  | cons c cs ih =>
    have h := step_sim cat xs s c (ha c (by simp)) (hs c (by simp))
    simp only [run, ptrRun, ← h]
    cases step cat xs s c with
    | none => rfl
    | some p =>
      simp only [Option.bind_some, Option.map_some]
      rw [ih p.1 (fun d hd => ha d (by simp [hd])) (fun d hd => hs d (by simp [hd]))]

/-- Operators that the category does not have do not compile. -/
theorem step_category (cat : Cat) (xs : List α) (s : Nat → Iter α β) (c : Cmd) (h : ¬ Allowed cat c) :
    step cat xs s c = none := by
  cases c <;> cases cat <;> simp [Allowed] at h <;>
    simp [step, preDec, postDec, equal, addEq, subEq, plus, minus, index, difference, compare3, Cat.isBaseOf, Cat.rank] <;>
    (cases negate _ <;> rfl)

private theorem collect_from (cat : Cat) (hc : cat ≠ .input) (xs : List α) (f : α → β) (m k fuel : Nat)
    (hm : k + m = xs.length) (hf : m < fuel) (g : α → β) :
    collect cat xs fuel ⟨k, f⟩ ⟨xs.length, g⟩ = some ((xs.drop k).map f) := by
  have hfw : Cat.forward.isBaseOf cat = true := by
    cases cat with
    | input => exact absurd rfl hc
    | _ => rfl
  induction m generalizing k fuel with
  | zero =>
    obtain ⟨fuel, rfl⟩ : ∃ n, fuel = n + 1 := ⟨fuel - 1, by omega⟩
    obtain rfl : k = xs.length := by omega
    simp [collect, equal, hfw]
  | succ m ih =>
    obtain ⟨fuel, rfl⟩ : ∃ n, fuel = n + 1 := ⟨fuel - 1, by omega⟩
    have hk : k < xs.length := by omega
    have e1 : equal cat (⟨k, f⟩ : Iter α β) ⟨xs.length, g⟩ = some false := by
      simp [equal, hfw]; omega
    have e2 : deref xs (⟨k, f⟩ : Iter α β) = some (f xs[k]) := by
      simp [deref, ptrRead, hk]
    have e3 : preInc xs (⟨k, f⟩ : Iter α β) = some ⟨((k + 1 : Nat) : Int), f⟩ := by
      unfold preInc ptrAdd
      rw [if_pos (by constructor <;> push_cast <;> omega)]
      simp
    simp only [collect, e1, e2, e3, Option.bind_some, Bool.false_eq_true, if_false]
    rw [ih (k + 1) fuel (by omega) (by omega)]
    rw [List.drop_eq_getElem_cons hk]
    rfl

/-- A loop from the begin to the end applies the function to each element, in order. -/
theorem collect_spec (cat : Cat) (hc : cat ≠ .input) (xs : List α) (f g : α → β) (fuel : Nat)
    (hf : xs.length < fuel) :
    collect cat xs fuel ⟨0, f⟩ ⟨xs.length, g⟩ = some (xs.map f) := by
  have := collect_from cat hc xs f xs.length 0 fuel (by omega) hf g
  simpa using this

/-! ### Where it goes wrong -/

/-- Subtracting a positive number of an unsigned type as wide as `int` moves forward instead, by that number less
than a power of two: no array that fits half of the type is that long, so it is undefined, for every iterator and
number, although the iterator may be far enough from the begin. -/
theorem subEq_unsigned_fails (cat : Cat) (xs : List α) (it : Iter α β) (k : Elem) (h32 : 32 ≤ k.ty.bits)
    (hu : k.ty.signed = false) (h0 : 0 < k.val) (hk : k.val ≤ 2 ^ (k.ty.bits - 1)) (hp : 0 ≤ it.base)
    (hx : (xs.length : Int) < 2 ^ (k.ty.bits - 1)) :
    subEq cat xs it k = none ∧ minus cat xs it k = none := by
  have hpr : promote k.ty = k.ty := by unfold promote; rw [if_neg (by omega)]
  have hpow : (2 ^ k.ty.bits : Int) = 2 * 2 ^ (k.ty.bits - 1) := by
    obtain ⟨m, hm⟩ : ∃ m, k.ty.bits = m + 1 := ⟨k.ty.bits - 1, by omega⟩
    rw [hm]; simp [pow_succ]; ring
  have e : negate k = some (2 ^ k.ty.bits - k.val) := by
    unfold negate
    rw [hpr, if_neg (by simp [hu])]
    congr 1
    have pos : (0 : Int) < 2 ^ (k.ty.bits - 1) := by positivity
    rw [← Int.add_emod_right, Int.emod_eq_of_lt] <;> linarith
  have key : subEq cat xs it k = none := by
    unfold subEq
    rw [e, Option.bind_some]
    unfold addEq ptrAdd
    rw [if_neg (c := 0 ≤ it.base + (2 ^ k.ty.bits - k.val) ∧ _) (by rintro ⟨-, h⟩; linarith)]
    split_ifs <;> rfl
  exact ⟨key, key⟩

/-! ### Examples -/

/-- The registers of the examples. -/
private def s0 : Nat → Iter Nat Int := fun _ => ⟨0, fun x => -(x : Int)⟩

/-- Moves forward, goes back to a copy, compares, and reads. -/
example : run .randomAccess [5, 7, 9] s0
      [.postInc 1 0, .deref 0, .deref 1, .addEq 0 ⟨⟨32, true⟩, 2⟩, .difference 0 1, .subEq 0 ⟨⟨32, true⟩, 1⟩,
        .index 1 ⟨⟨64, false⟩, 2⟩, .compare3 1 0, .equal 0 1, .arrow 0] =
    some [.nothing, .value (-7), .value (-5), .nothing, .number 3, .nothing, .value (-9), .order .lt, .truth false,
      .value (-9)] := by
  rw [run_eq _ _ _ _ (by simp [Allowed]) (by simp [Sub, Negatable, promote])]
  rfl

example : collect .forward [5, 7, 9] 4 ⟨0, fun x => x + 1⟩ ⟨3, id⟩ = some [6, 8, 10] :=
  collect_spec .forward (by decide) [5, 7, 9] _ _ 4 (by decide)

/-- `it - 1u` at the end of three elements. -/
example : minus .randomAccess [5, 7, 9] (⟨3, id⟩ : Iter Nat Nat) ⟨⟨32, false⟩, 1⟩ = none :=
  (subEq_unsigned_fails .randomAccess [5, 7, 9] ⟨3, id⟩ ⟨⟨32, false⟩, 1⟩ (by decide) rfl (by decide) (by decide)
    (by decide) (by decide)).2

end Actl.Adaptor
