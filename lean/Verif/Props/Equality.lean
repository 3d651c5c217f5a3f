import Verif.Model.Equality
import Verif.Props.Containers
import Mathlib.Tactic

/-! # C89: equality of sequences -/

namespace Actl.Equality

/-! ### Numbers -/

/-- The type has the value. -/
def Elem.Valid (e : Elem) : Prop :=
  if e.ty.signed then -(2 ^ (e.ty.bits - 1) : Int) ≤ e.val ∧ e.val < 2 ^ (e.ty.bits - 1)
  else 0 ≤ e.val ∧ e.val < 2 ^ e.ty.bits

/-- A number is negative, and compared with a number of an unsigned type at least as wide (and as wide as
`int`). -/
def Mixed (a b : Elem) : Prop :=
  a.val < 0 ∧ b.ty.signed = false ∧ a.ty.bits ≤ b.ty.bits ∧ 32 ≤ b.ty.bits

private theorem emod_small {x M : Int} (h : 0 ≤ x) (h' : x < M) : x % M = x := Int.emod_eq_of_lt h h'

private theorem pow_le {a b : Nat} (h : a ≤ b) : (2 ^ a : Int) ≤ 2 ^ b :=
  pow_le_pow_right₀ (by norm_num) h

/-- The bounds that a valid value meets in every wide enough type. -/
private theorem Elem.Valid.lt {e : Elem} (h : e.Valid) : e.val < 2 ^ e.ty.bits := by
  unfold Elem.Valid at h
  split_ifs at h
  · exact lt_of_lt_of_le h.2 (pow_le (by omega))
  · exact h.2

private theorem Elem.Valid.nonneg {e : Elem} (h : e.Valid) (hs : e.ty.signed = false) : 0 ≤ e.val := by
  unfold Elem.Valid at h
  rw [if_neg (by simp [hs])] at h
  exact h.1

private theorem Elem.Valid.gt {e : Elem} (h : e.Valid) (h0 : 0 < e.ty.bits) : -(2 ^ e.ty.bits : Int) < e.val := by
  unfold Elem.Valid at h
  have : (2 ^ (e.ty.bits - 1) : Int) < 2 ^ e.ty.bits :=
    pow_lt_pow_right₀ (by norm_num) (by omega)
  split_ifs at h
  · omega
  · have : (0 : Int) < 2 ^ e.ty.bits := by positivity
    omega

/-- The common type is signed, or as wide as both and one of the two is of this very type. -/
private theorem common_cases (a b : IntTy) :
    (common a b).signed = true ∨
      ((common a b).signed = false ∧ a.bits ≤ (common a b).bits ∧ b.bits ≤ (common a b).bits ∧
        ((a.signed = false ∧ b.signed = false) ∨ (a.signed = true ∧ common a b = b) ∨
          (b.signed = true ∧ common a b = a))) := by
  obtain ⟨m, s⟩ := a
  obtain ⟨n, t⟩ := b
  cases s <;> cases t <;> simp [common] <;> by_cases h : m ≤ n <;> by_cases h' : n ≤ m <;> simp [h, h'] <;> omega

private theorem promote_bits (t : IntTy) : t.bits ≤ (promote t).bits := by
  unfold promote; split_ifs <;> simp <;> omega

private theorem promote_unsigned {t : IntTy} (h : (promote t).signed = false) :
    promote t = t ∧ 32 ≤ t.bits := by
  unfold promote at *; split_ifs at * <;> simp_all

/-- `==` compares the numbers, unless a negative one is converted to an unsigned type. -/
theorem eqOp_iff {a b : Elem} (ha : a.Valid) (hb : b.Valid) (h : ¬ Mixed a b) (h' : ¬ Mixed b a) :
    eqOp a b = true ↔ a.val = b.val := by
  unfold eqOp
  simp only [beq_iff_eq]
  rcases common_cases (promote a.ty) (promote b.ty) with hs | ⟨hs, h1, h2, h3⟩
  · simp [convert, hs]
  · generalize hT : common (promote a.ty) (promote b.ty) = T at *
    have wa : a.val < 2 ^ T.bits :=
      lt_of_lt_of_le ha.lt (pow_le ((promote_bits _).trans h1))
    have wb : b.val < 2 ^ T.bits :=
      lt_of_lt_of_le hb.lt (pow_le ((promote_bits _).trans h2))
    have key : 0 ≤ a.val ∧ 0 ≤ b.val := by
      rcases h3 with ⟨ha', hb'⟩ | ⟨ha', hc⟩ | ⟨hb', hc⟩
      · have ea := promote_unsigned ha'
        have eb := promote_unsigned hb'
        rw [ea.1] at ha'; rw [eb.1] at hb'
        exact ⟨ha.nonneg ha', hb.nonneg hb'⟩
      · subst hc
        have eb := promote_unsigned hs
        rw [eb.1] at hs h1
        have hb0 := hb.nonneg hs
        refine ⟨?_, hb0⟩
        by_contra hn
        exact h ⟨by omega, hs, (promote_bits _).trans h1, eb.2⟩
      · subst hc
        have ea := promote_unsigned hs
        rw [ea.1] at hs h2
        have ha0 := ha.nonneg hs
        refine ⟨ha0, ?_⟩
        by_contra hn
        exact h' ⟨by omega, hs, (promote_bits _).trans h2, ea.2⟩
    simp only [convert, hs, Bool.false_eq_true, if_false]
    rw [emod_small key.1 wa, emod_small key.2 wb]

/-- A negative number equals the number that is larger by the power of two. -/
theorem eqOp_mixed {a b : Elem} (ha : a.Valid) (hb : b.Valid) (h0 : 0 < a.ty.bits) (h : Mixed a b) :
    eqOp a b = true ↔ b.val = a.val + 2 ^ b.ty.bits := by
  obtain ⟨hn, hu, hw, h32⟩ := h
  have pb : promote b.ty = b.ty := by unfold promote; rw [if_neg (by omega)]
  have sa : a.ty.signed = true := by
    by_contra hc
    have := ha.nonneg (by simpa using hc)
    omega
  have spa : (promote a.ty).signed = true := by unfold promote; split_ifs <;> simp [sa]
  have wpa : (promote a.ty).bits ≤ b.ty.bits := by unfold promote; split_ifs <;> assumption
  have hc : common (promote a.ty) (promote b.ty) = b.ty := by
    rw [pb]; unfold common
    simp [spa, hu, wpa]
  unfold eqOp
  simp only [hc, convert, hu, Bool.false_eq_true, if_false, beq_iff_eq]
  rw [emod_small (hb.nonneg hu) hb.lt]
  have hlow : -(2 ^ b.ty.bits : Int) < a.val := by
    have := ha.gt h0
    have h3 : (2 ^ a.ty.bits : Int) ≤ 2 ^ b.ty.bits := pow_le hw
    omega
  have : a.val % 2 ^ b.ty.bits = a.val + 2 ^ b.ty.bits := by
    rw [← Int.add_emod_right]
    exact emod_small (by omega) (by omega)
  rw [this]
  exact ⟨fun h => h.symm, fun h => h.symm⟩

theorem eqOp_comm (a b : Elem) : eqOp a b = eqOp b a := by
  have : common (promote a.ty) (promote b.ty) = common (promote b.ty) (promote a.ty) := by
    generalize promote a.ty = s
    generalize promote b.ty = t
    obtain ⟨m, s⟩ := s
    obtain ⟨n, t⟩ := t
    cases s <;> cases t <;> simp [common, max_comm]
  unfold eqOp
  simp only [this]
  rw [Bool.eq_iff_iff, beq_iff_eq, beq_iff_eq]
  exact eq_comm

/-! ### Sequences -/

/-- The elements. -/
def Seq.elems : Seq → List Elem
  | .tuple xs | .dynamic _ xs | .array xs => xs

/-- Tuples and ranges with random access and size known at run time. -/
def Seq.Supported : Seq → Prop
  | .tuple _ => True
  | .dynamic ra _ => ra = true
  | .array _ => False

open Classical in
private theorem foldEq_spec (l r : List Elem) (is : List Nat) (hl : ∀ i ∈ is, i < l.length)
    (hr : ∀ i ∈ is, i < r.length) :
    foldEq l r is = some (decide (∀ i ∈ is, ∀ a b, l[i]? = some a → r[i]? = some b → eqOp a b = true)) := by
  induction is with
  | nil => simp [foldEq]
  | cons i is ih =>
    have h1 := List.getElem?_eq_getElem (hl i (by simp))
    have h2 := List.getElem?_eq_getElem (hr i (by simp))
    rw [foldEq, h1, h2]
    simp only [Option.bind_some]
    rw [ih (fun j hj => hl j (by simp [hj])) (fun j hj => hr j (by simp [hj]))]
    by_cases he : eqOp (l[i]'(hl i (by simp))) (r[i]'(hr i (by simp))) = true
    · rw [if_pos he]
      congr 1
      rw [decide_eq_decide]
      simp only [List.mem_cons, forall_eq_or_imp]
      refine ⟨fun h => ⟨fun a b ha hb => ?_, h⟩, fun h => h.2⟩
      rw [h1] at ha; rw [h2] at hb
      cases ha; cases hb; exact he
    · rw [if_neg he]
      congr 1
      symm
      rw [decide_eq_false_iff_not]
      intro h
      exact he (h i (by simp) _ _ h1 h2)

open Classical in
private theorem rangeLoop_spec (l r : List Elem) (hr : r.length = l.length) (fuel i : Nat)
    (hi : i ≤ l.length) (hf : l.length < fuel + i) :
    rangeLoop l r l.length fuel i =
      some (decide (∀ j, i ≤ j → ∀ a b, l[j]? = some a → r[j]? = some b → eqOp a b = true)) := by
  induction fuel generalizing i with
  | zero => omega
  | succ fuel ih =>
    rw [rangeLoop]
    by_cases hn : i ≠ l.length
    · have h1 := List.getElem?_eq_getElem (show i < l.length by omega)
      have h2 := List.getElem?_eq_getElem (show i < r.length by omega)
      rw [if_pos hn, h1, h2]
      simp only [Option.bind_some]
      by_cases he : eqOp (l[i]'(by omega)) (r[i]'(by omega)) = true
      · rw [if_neg (by simp [he]), ih (i + 1) (by omega) (by omega)]
        congr 1
        rw [decide_eq_decide]
        refine ⟨fun h j hj a b ha hb => ?_, fun h j hj => h j (by omega)⟩
        rcases Nat.lt_or_ge i j with hij | hij
        · exact h j hij a b ha hb
        · obtain rfl : i = j := by omega
          rw [h1] at ha; rw [h2] at hb
          cases ha; cases hb; exact he
      · rw [if_pos (by simpa using he)]
        congr 1
        symm
        rw [decide_eq_false_iff_not]
        exact fun h => he (h i le_rfl _ _ h1 h2)
    · rw [if_neg hn]
      congr 1
      symm
      rw [decide_eq_true_iff]
      intro j hj a b ha
      have := (List.getElem?_eq_some_iff.1 ha).1
      omega

/-- The lists are equal in size and `==` holds at every position. -/
def Same (l r : List Elem) : Prop := List.Forall₂ (fun a b => eqOp a b = true) l r

private theorem same_iff (l r : List Elem) :
    Same l r ↔ l.length = r.length ∧
      ∀ (i : Nat) a b, l[i]? = some a → r[i]? = some b → eqOp a b = true := by
  unfold Same
  rw [List.forall₂_iff_get]
  refine and_congr_right fun hlen => ⟨fun h i a b ha hb => ?_, fun h i h1 h2 => ?_⟩
  · obtain ⟨h1, rfl⟩ := List.getElem?_eq_some_iff.1 ha
    obtain ⟨h2, rfl⟩ := List.getElem?_eq_some_iff.1 hb
    exact h i h1 h2
  · exact h i _ _ (List.getElem?_eq_getElem h1) (List.getElem?_eq_getElem h2)

open Classical in
private theorem equalTuples_same (l r : List Elem) : ∃ b, equalTuples l r = some b ∧ (b = true ↔ Same l r) := by
  unfold equalTuples
  by_cases hn : l.length ≠ r.length
  · rw [if_pos hn]
    exact ⟨false, rfl, by simp [same_iff, hn]⟩
  · push Not at hn
    rw [if_neg (by simpa using hn), foldEq_spec _ _ _ (by simp) (by simp [hn])]
    refine ⟨_, rfl, ?_⟩
    rw [decide_eq_true_iff, same_iff]
    refine ⟨fun h => ⟨hn, fun i a b ha hb => h i ?_ a b ha hb⟩, fun h i _ => h.2 i⟩
    exact List.mem_range.2 (List.getElem?_eq_some_iff.1 ha).1

private theorem equalTupleRange_same (l r : List Elem) :
    ∃ b, equalTupleRange l r = some b ∧ (b = true ↔ Same l r) := by
  have : equalTupleRange l r = equalTuples l r := by
    unfold equalTupleRange equalTuples
    simp only [ne_comm]
  rw [this]
  exact equalTuples_same l r

open Classical in
private theorem equalRanges_same (l r : List Elem) : ∃ b, equalRanges l r = some b ∧ (b = true ↔ Same l r) := by
  unfold equalRanges
  by_cases hn : r.length ≠ l.length
  · rw [if_pos hn]
    exact ⟨false, rfl, by simp [same_iff, hn.symm]⟩
  · push Not at hn
    rw [if_neg (by simpa using hn), rangeLoop_spec _ _ hn _ _ (by omega) (by omega)]
    refine ⟨_, rfl, ?_⟩
    rw [decide_eq_true_iff, same_iff]
    exact ⟨fun h => ⟨hn.symm, fun i => h i (by omega)⟩, fun h i _ => h.2 i⟩

private theorem same_comm (l r : List Elem) : Same l r ↔ Same r l := by
  rw [same_iff, same_iff]
  constructor <;>
  · rintro ⟨h1, h2⟩
    exact ⟨h1.symm, fun i a b ha hb => by rw [eqOp_comm]; exact h2 i b a hb ha⟩

/-- Any mix of tuples and ranges: equal just if the sizes are equal and `==` holds for every two elements at
the same position. -/
theorem isEqualSequence_same {l r : Seq} (hl : l.Supported) (hr : r.Supported) :
    ∃ b, isEqualSequence l r = some b ∧ (b = true ↔ Same l.elems r.elems) := by
  cases l with
  | array => exact hl.elim
  | tuple l => cases r with
    | array => exact hr.elim
    | tuple r => exact equalTuples_same l r
    | dynamic ra r =>
      obtain rfl : ra = true := hr
      exact equalTupleRange_same l r
  | dynamic ra l =>
    obtain rfl : ra = true := hl
    cases r with
    | array => exact hr.elim
    | tuple r =>
      obtain ⟨b, h1, h2⟩ := equalTupleRange_same r l
      exact ⟨b, h1, h2.trans (same_comm _ _)⟩
    | dynamic ra r =>
      obtain rfl : ra = true := hr
      exact equalRanges_same l r

/-- **C89.** Sequences of integers, whatever their types: `is_equal_sequence` tells whether they are the
same list of numbers, if no negative number meets an unsigned one at least as wide. -/
theorem isEqualSequence_spec {l r : Seq} (hl : l.Supported) (hr : r.Supported)
    (vl : ∀ e ∈ l.elems, e.Valid) (vr : ∀ e ∈ r.elems, e.Valid)
    (hm : ∀ a ∈ l.elems, ∀ b ∈ r.elems, ¬ Mixed a b ∧ ¬ Mixed b a) :
    isEqualSequence l r = some (decide (l.elems.map Elem.val = r.elems.map Elem.val)) := by
  obtain ⟨b, h1, h2⟩ := isEqualSequence_same hl hr
  rw [h1]
  congr 1
  rw [Bool.eq_iff_iff, h2, decide_eq_true_iff]
  generalize l.elems = xs at *
  generalize r.elems = ys at *
  clear h1 h2
  induction xs generalizing ys with
  | nil => cases ys with
    | nil => simp [Same]
    | cons y ys => simpa [Same] using fun h => by cases h
  | cons x xs ih => cases ys with
    | nil => simpa [Same] using fun h => by cases h
    | cons y ys =>
      have h := ih (fun e he => vl e (by simp [he])) ys (fun e he => vr e (by simp [he]))
        (fun a ha b hb => hm a (by simp [ha]) b (by simp [hb]))
      unfold Same at *
      have hxy := hm x (by simp) y (by simp)
      rw [List.forall₂_cons, h, eqOp_iff (vl x (by simp)) (vr y (by simp)) hxy.1 hxy.2]
      simp

/-- The result does not depend on the order of the arguments. -/
theorem isEqualSequence_comm {l r : Seq} (hl : l.Supported) (hr : r.Supported) :
    isEqualSequence l r = isEqualSequence r l := by
  obtain ⟨b, h1, h2⟩ := isEqualSequence_same hl hr
  obtain ⟨c, h3, h4⟩ := isEqualSequence_same hr hl
  rw [h1, h3]
  congr 1
  rw [Bool.eq_iff_iff, h2, h4, same_comm]

example : isEqualSequence (.tuple [⟨⟨64, true⟩, 4⟩, ⟨⟨32, true⟩, -2⟩])
    (.dynamic true [⟨⟨16, false⟩, 4⟩, ⟨⟨8, true⟩, -2⟩]) = some true :=
  (isEqualSequence_spec (l := .tuple _) (r := .dynamic true _) trivial rfl
    (by simp [Seq.elems, Elem.Valid]) (by simp [Seq.elems, Elem.Valid])
    (by simp [Seq.elems, Mixed])).trans (by decide)

/-! ### Where it fails -/

/-- Whatever negative number of a signed type meets the elements of an unsigned type at least as wide: some
sequence of another number counts as equal. -/
theorem isEqualSequence_mixed_fails (t : IntTy) (x : Int) (w : Nat) (ht : t.signed = true) (h0 : 0 < t.bits)
    (hx : (⟨t, x⟩ : Elem).Valid) (hneg : x < 0) (hw : t.bits ≤ w) (h32 : 32 ≤ w) :
    ∃ y : Int, (⟨⟨w, false⟩, y⟩ : Elem).Valid ∧ y ≠ x ∧
      isEqualSequence (.dynamic true [⟨t, x⟩]) (.dynamic true [⟨⟨w, false⟩, y⟩]) = some true ∧
      isEqualSequence (.tuple [⟨t, x⟩]) (.tuple [⟨⟨w, false⟩, y⟩]) = some true ∧
      isEqualSequence (.tuple [⟨t, x⟩]) (.dynamic true [⟨⟨w, false⟩, y⟩]) = some true := by
  have hgt : -(2 ^ t.bits : Int) < x := hx.gt h0
  have hp : (2 ^ t.bits : Int) ≤ 2 ^ w := pow_le hw
  have hv : (⟨⟨w, false⟩, x + 2 ^ w⟩ : Elem).Valid := by
    unfold Elem.Valid
    simp only [Bool.false_eq_true, if_false]
    omega
  have he : eqOp ⟨t, x⟩ ⟨⟨w, false⟩, x + 2 ^ w⟩ = true :=
    (eqOp_mixed hx hv h0 ⟨hneg, rfl, hw, h32⟩).2 rfl
  have hs : Same [⟨t, x⟩] [⟨⟨w, false⟩, x + 2 ^ w⟩] := List.Forall₂.cons he .nil
  have key : ∀ {l r : Seq}, l.Supported → r.Supported → Same l.elems r.elems →
      isEqualSequence l r = some true := by
    intro l r hl hr h
    obtain ⟨b, h1, h2⟩ := isEqualSequence_same hl hr
    rw [h1, h2.2 h]
  have hpos : (0 : Int) < 2 ^ w := by positivity
  exact ⟨x + 2 ^ w, hv, by omega, key rfl rfl hs, key trivial trivial hs, key trivial rfl hs⟩

example : isEqualSequence (.dynamic true [⟨⟨32, true⟩, -1⟩]) (.dynamic true [⟨⟨32, false⟩, 4294967295⟩]) =
    some true := by decide +kernel

/-- Built-in arrays, although their size is known, are compared with nothing: the call does not compile. -/
theorem isEqualSequence_array_fails (xs : List Elem) (s : Seq) :
    isEqualSequence (.array xs) s = none ∧ isEqualSequence s (.array xs) = none := by
  cases s <;> exact ⟨rfl, rfl⟩

/-! ### Arrays of the same type -/

private theorem arrayLoop_spec (l r : List Elem) (hr : r.length = l.length) (fuel i : Nat)
    (hi : i ≤ l.length) (hf : l.length < fuel + i) :
    arrayLoop l r fuel i = rangeLoop l r l.length fuel i := by
  induction fuel generalizing i with
  | zero => rfl
  | succ fuel ih =>
    rw [arrayLoop, rangeLoop]
    by_cases hn : i ≠ l.length
    · rw [if_pos hn, if_pos hn, List.getElem?_eq_getElem (show i < l.length by omega),
        List.getElem?_eq_getElem (show i < r.length by omega)]
      simp only [Option.bind_some]
      rw [ih (i + 1) (by omega) (by omega)]
    · rw [if_neg hn, if_neg hn]

/-- Two semi-static arrays of the same type are equal just if all their elements are equal, the static ones
and the dynamic ones. -/
theorem semiEq_spec (dyn : Int) (statics l r : List Int) (ty : IntTy)
    (hl : l.length = statics.count dyn) (hr : r.length = statics.count dyn)
    (vl : ∀ x ∈ l, (⟨ty, x⟩ : Elem).Valid) (vr : ∀ x ∈ r, (⟨ty, x⟩ : Elem).Valid) :
    ∃ b, semiEq ty l r = some b ∧
      (b = true ↔ ∀ i, Containers.semiAt dyn statics l i = Containers.semiAt dyn statics r i) := by
  have hlen : l.length = r.length := hl.trans hr.symm
  have h1 : semiEq ty l r = equalRanges (l.map (⟨ty, ·⟩)) (r.map (⟨ty, ·⟩)) := by
    unfold semiEq isEqualArray equalRanges
    rw [if_neg (by simp [hlen]), arrayLoop_spec _ _ (by simp [hlen]) _ _ (by omega) (by omega)]
  have h2 : isEqualSequence (.dynamic true (l.map (⟨ty, ·⟩))) (.dynamic true (r.map (⟨ty, ·⟩))) =
      some (decide (l = r)) := by
    rw [isEqualSequence_spec (l := .dynamic true _) (r := .dynamic true _) rfl rfl]
    · simp [Seq.elems, Function.comp_def]
    · simpa [Seq.elems] using vl
    · simpa [Seq.elems] using vr
    · simp only [Seq.elems, List.mem_map, forall_exists_index, and_imp]
      rintro _ x hx rfl _ y hy rfl
      constructor
      · rintro ⟨a, b, -, -⟩
        have := (vl x hx).nonneg b
        simp only at a this
        omega
      · rintro ⟨a, b, -, -⟩
        have := (vr y hy).nonneg b
        simp only at a this
        omega
  rw [h1]
  have h3 : equalRanges (l.map (⟨ty, ·⟩)) (r.map (⟨ty, ·⟩)) = some (decide (l = r)) := h2
  refine ⟨_, h3, ?_⟩
  rw [decide_eq_true_iff]
  exact Containers.semi_eq_iff dyn statics l r hl hr

example : semiEq ⟨64, false⟩ [2, 5] [2, 5] = some true ∧
    (List.range 4).map (Containers.semiAt (-1) [7, -1, 8, -1] [2, 5]) = [some 7, some 2, some 8, some 5] := by
  decide +kernel

/-! ### The choice of the type of an array -/

/-- Whatever the values, the type is never ambiguous: a static array if no value is dynamic, an ordinary one
if all the values are dynamic (and there are any), a semi-static one otherwise. -/
theorem select_spec (dyn : Int) (values : List Int) :
    select dyn values = some
      (if dyn ∉ values then .static else if ∀ v ∈ values, v = dyn then .array else .semiStatic) := by
  unfold select
  have h0 : values.countP (· == dyn) = 0 ↔ dyn ∉ values := by
    rw [List.countP_eq_zero]
    exact ⟨fun h hd => by simpa using h dyn hd, fun h a ha hc => h (by rw [beq_iff_eq] at hc; exact hc ▸ ha)⟩
  have h1 : values.countP (· == dyn) = values.length ↔ ∀ v ∈ values, v = dyn := by
    rw [List.countP_eq_length]; simp
  simp only [← h0, ← h1]
  generalize hc : values.countP (· == dyn) = c
  generalize values.length = n
  by_cases e0 : c = 0
  · subst e0
    by_cases en : n = 0
    · subst en; rfl
    · have hf : [Spec.primary, .noDynamic, .allDynamic, .empty].filter (Spec.matches n 0) =
          [.primary, .noDynamic] := by
        have : 0 ≠ n := fun h => en h.symm
        simp [List.filter_cons, Spec.matches, en, this]
      simp only [hf]
      rfl
  · by_cases en : c = n
    · subst en
      have hf : [Spec.primary, .noDynamic, .allDynamic, .empty].filter (Spec.matches c c) =
          [.primary, .allDynamic] := by
        simp [List.filter_cons, Spec.matches, e0]
      simp only [hf, e0, if_false, if_true]
      rfl
    · have hf : [Spec.primary, .noDynamic, .allDynamic, .empty].filter (Spec.matches n c) = [.primary] := by
        simp [List.filter_cons, Spec.matches, e0, en]
      simp only [hf, e0, en, if_false]
      rfl

example : select (-1) [3, -1] = some .semiStatic ∧ select (-1) [-1, -1] = some .array ∧
    select (-1) [] = some .static := by decide +kernel

end Actl.Equality
