import Verif.Lemmas.LineObjects
import Mathlib.Tactic.FinCases

/-!
# Lines as objects keep what they were made from

C139.  Statements in terms of `Spec/LineObjects.lean`.
-/

namespace Actl.Geo

open Ints (IntT)

variable {n m : Nat}

/-! ### Kinds -/

/-- The bytes that are accepted as kinds are six, one for each pair of ends of which the second has no greater value than the first;
`begin` and `end` of the kind give the two ends back, and they say which parameters belong to the line. -/
theorem lineKinds (x : Nat) :
    (isValidKind x = true ↔ x = 0 ∨ x = 1 ∨ x = 2 ∨ x = 5 ∨ x = 6 ∨ x = 10) ∧
      (∀ b e : Endpoint, isValidKind (combine b e) = true ↔ e.val ≤ b.val) ∧
      (∀ b e : Endpoint, e.val ≤ b.val → ∃ k : LineKind, k.val = combine b e ∧ k.first = b ∧ k.last = e) ∧
      ∀ (k : LineKind) (t : ℚ), Allowed k t ↔ LowerEnd k.first t ∧ UpperEnd k.last t := by
  refine ⟨?_, ?_, ?_, ?_⟩
  · rw [valid_iff]
    constructor
    · rintro ⟨k, rfl⟩
      cases k <;> decide
    · rintro (rfl | rfl | rfl | rfl | rfl | rfl)
      exacts [⟨.free, rfl⟩, ⟨.closedRay, rfl⟩, ⟨.openRay, rfl⟩, ⟨.closedSegment, rfl⟩, ⟨.halfOpenSegment, rfl⟩, ⟨.openSegment, rfl⟩]
  · intro b e
    cases b <;> cases e <;> decide
  · intro b e h
    cases b <;> cases e <;> first
      | exact ⟨.free, rfl, rfl, rfl⟩ | exact ⟨.closedRay, rfl, rfl, rfl⟩ | exact ⟨.openRay, rfl, rfl, rfl⟩
      | exact ⟨.closedSegment, rfl, rfl, rfl⟩ | exact ⟨.halfOpenSegment, rfl, rfl, rfl⟩ | exact ⟨.openSegment, rfl, rfl, rfl⟩
      | exact absurd h (by decide)
  · intro k t
    have f1 : LineKind.free.first = .free := rfl
    have f2 : LineKind.free.last = .free := rfl
    have f3 : LineKind.closedRay.first = .closed := rfl
    have f4 : LineKind.closedRay.last = .free := rfl
    have f5 : LineKind.openRay.first = .opened := rfl
    have f6 : LineKind.openRay.last = .free := rfl
    have f7 : LineKind.closedSegment.first = .closed := rfl
    have f8 : LineKind.closedSegment.last = .closed := rfl
    have f9 : LineKind.halfOpenSegment.first = .opened := rfl
    have f10 : LineKind.halfOpenSegment.last = .closed := rfl
    have f11 : LineKind.openSegment.first = .opened := rfl
    have f12 : LineKind.openSegment.last = .opened := rfl
    cases k <;> simp [Allowed, *, LowerEnd, UpperEnd]

/-! ### Making a line -/

/-- A line is made unless an assertion about its kind fails or a difference of signed coordinates overflows. -/
theorem make_isSome (t : LineTy) (ta : IntT) (a : Vec Int n) (tb : IntT) (b : Vec Int n) (kind : Option Nat) (vector : Bool) :
    (LineObj.make t ta a tb b kind vector).isSome = true ↔
      (∀ x, kind = some x → ∃ k : LineKind, x = k.val ∧ Admits t.kind k) ∧
        (vector = true ∨ ((arithTy tb ta).signed = true →
          ∀ i, (arithTy tb ta).Has ((arithTy tb ta).cast (b i) - (arithTy tb ta).cast (a i)))) := by
  have hk : (∀ x, kind = some x → ∃ k : LineKind, x = k.val ∧ Admits t.kind k) ↔
      ∃ y, setKind t.kind (kind.getD (defaultKind t.kind)) = some y := by
    cases kind with
    | none =>
      have h := defaultKind_val t.kind
      refine ⟨fun _ => ⟨(initialKind t.kind).val, ?_⟩, fun _ x e => nomatch e⟩
      simp only [Option.getD_none]
      rw [h.1]
      exact setKind_admits h.2
    | some x =>
      constructor
      · intro h
        obtain ⟨k, rfl, ha⟩ := h x rfl
        exact ⟨k.val, setKind_admits ha⟩
      · rintro ⟨y, hy⟩ x' e
        cases e
        obtain ⟨k, h1, -, h3⟩ := setKind_some hy
        exact ⟨k, h1, h3⟩
  have hs : (pointSub tb b ta a).isSome = true ↔ ((arithTy tb ta).signed = true →
      ∀ i, (arithTy tb ta).Has ((arithTy tb ta).cast (b i) - (arithTy tb ta).cast (a i))) := by
    unfold pointSub
    rw [Option.isSome_iff_exists]
    constructor
    · rintro ⟨v, hv⟩ hsg i
      have := allCoords_iff.1 hv i
      rcases arith_cases this with h | h
      · exact h.2
      · rw [hsg] at h; exact absurd h.1 (by decide)
    · intro h
      refine ⟨fun i => (arithTy tb ta).cast ((arithTy tb ta).cast (b i) - (arithTy tb ta).cast (a i)), allCoords_iff.2 fun i => ?_⟩
      by_cases hsg : (arithTy tb ta).signed = true
      · rw [arith_has (arithTy_builtin tb ta) (h hsg i), cast_eq (arithTy_builtin tb ta) (h hsg i)]
      · unfold IntT.arith
        rw [if_neg hsg]
  rw [hk, ← hs]
  unfold LineObj.make
  cases hset : setKind t.kind (kind.getD (defaultKind t.kind)) with
  | none => simp
  | some y => cases vector <;> simp

/-- Whatever the integer types of two points, a line of the common type of their coordinates starts at the first point and its
`end()` is the second one, both converted to that type; `end()` never overflows, even if the vector has wrapped around.  The line is
degenerate exactly when the two are the same. -/
theorem make_end {ta tb : IntT} (ha : Builtin ta) (K : KindTy) {a b : Vec Int n} (hA : ∀ i, ta.Has (a i)) (hB : ∀ i, tb.Has (b i))
    {kind : Option Nat} {o : LineObj n} (h : LineObj.make ⟨scalarTy ta tb, K⟩ ta a tb b kind false = some o) :
    o.start = castPoint (scalarTy ta tb) a ∧
      o.stop ⟨scalarTy ta tb, K⟩ = some (castPoint (scalarTy ta tb) b) ∧
      (o.degenerate = true ↔ castPoint (scalarTy ta tb) a = castPoint (scalarTy ta tb) b) := by
  unfold LineObj.make at h
  obtain ⟨k, -, h⟩ := Option.bind_eq_some_iff.1 h
  simp only [Bool.false_eq_true, if_false] at h
  obtain ⟨v, hv, rfl⟩ := Option.map_eq_some_iff.1 h
  have hT := scalarTy_builtin (b := tb) ha
  have hW := arithTy_builtin tb ta
  have hv := fun i => allCoords_iff.1 hv i
  -- the vector modulo the number of values
  have hvm : ∀ i, (scalarTy ta tb).cast (v i) =
      (scalarTy ta tb).cast ((scalarTy ta tb).cast (b i) - (scalarTy ta tb).cast (a i)) := by
    intro i
    rcases scalarTy_cases (b := tb) ha with ⟨e, -, h2, h3, h4⟩ | e
    · subst e
      have ca := narrow_bounds h2 (hA i)
      have cb := narrow_bounds h2 (hB i)
      have hh := hv i
      rw [h4] at hh
      have bi : Builtin (⟨true, 32⟩ : IntT) := Or.inr (le_refl _)
      rw [cast_eq bi (int_has (by norm_num at ca ⊢; omega)), cast_eq bi (int_has (by norm_num at cb ⊢; omega)),
        arith_has bi (int_has (by norm_num at ca cb ⊢; omega))] at hh
      rw [h3, cast_eq ha (hA i), cast_eq ha (hB i), Option.some.inj hh]
    · have hh := arith_cast hW (hv i)
      rw [arithTy_comm tb ta, ← e] at hh
      rw [hh, cast_eq hT (cast_has hT _)]
  refine ⟨rfl, ?_, ?_⟩
  · unfold LineObj.stop pointAdd
    rw [Option.map_eq_some_iff]
    -- the sum is defined, and it is the second point modulo the number of values
    have key : ∀ i, ∃ s, (arithTy (scalarTy ta tb) (scalarTy ta tb)).arith
        ((arithTy (scalarTy ta tb) (scalarTy ta tb)).cast ((scalarTy ta tb).cast (a i)) +
          (arithTy (scalarTy ta tb) (scalarTy ta tb)).cast ((scalarTy ta tb).cast (v i))) = some s ∧
        (scalarTy ta tb).cast s = (scalarTy ta tb).cast (b i) := by
      intro i
      rw [arithTy_self]
      have h1 := cast_has hT (a i)
      have h2 := cast_has hT (v i)
      have hb' := cast_has hT (b i)
      obtain ⟨c, hc⟩ := cast_mod (scalarTy ta tb) ((scalarTy ta tb).cast (b i) - (scalarTy ta tb).cast (a i))
      rw [← hvm i] at hc
      have hsum : (scalarTy ta tb).cast (a i) + (scalarTy ta tb).cast (v i) =
          (scalarTy ta tb).cast (b i) + c * 2 ^ (scalarTy ta tb).width := by rw [hc]; ring
      by_cases hw : (scalarTy ta tb).width < 32
      · have hn : (scalarTy ta tb).width ≤ 16 := by rcases hT with h | h <;> omega
        have c1 := narrow_bounds hn h1
        have c2 := narrow_bounds hn h2
        have bi : Builtin (⟨true, 32⟩ : IntT) := Or.inr (le_refl _)
        have hp : (scalarTy ta tb).promote = ⟨true, 32⟩ := by unfold IntT.promote; rw [if_pos hw]
        rw [hp, cast_eq bi (int_has (by norm_num at c1 ⊢; omega)), cast_eq bi (int_has (by norm_num at c2 ⊢; omega)),
          arith_has bi (int_has (by norm_num at c1 c2 ⊢; omega))]
        refine ⟨_, rfl, cast_unique hT hb' c hsum⟩
      · have hp : (scalarTy ta tb).promote = scalarTy ta tb := by unfold IntT.promote; rw [if_neg hw]
        rw [hp, cast_eq hT h1, cast_eq hT h2]
        have e : scalarTy ta tb = arithTy tb ta := by
          rcases scalarTy_cases (b := tb) ha with ⟨-, -, q2, q3, -⟩ | e
          · rw [q3] at hw; omega
          · rw [e, arithTy_comm]
        by_cases hsg : (scalarTy ta tb).signed = true
        · have hd : (scalarTy ta tb).Has ((scalarTy ta tb).cast (b i) - (scalarTy ta tb).cast (a i)) := by
            have hh := hv i
            rw [← e] at hh
            rcases arith_cases hh with hh | hh
            · exact hh.2
            · rw [hsg] at hh; exact absurd hh.1 (by decide)
          have hve : (scalarTy ta tb).cast (v i) = (scalarTy ta tb).cast (b i) - (scalarTy ta tb).cast (a i) := by
            rw [hvm i, cast_eq hT hd]
          rw [show (scalarTy ta tb).cast (a i) + (scalarTy ta tb).cast (v i) = (scalarTy ta tb).cast (b i) by rw [hve]; ring]
          exact ⟨_, arith_has hT hb', cast_eq hT hb'⟩
        · unfold IntT.arith
          rw [if_neg hsg]
          refine ⟨_, rfl, ?_⟩
          rw [cast_unique hT hb' c hsum, cast_eq hT hb']
    choose s hs1 hs2 using key
    exact ⟨s, allCoords_iff.2 hs1, funext hs2⟩
  · have hz : (scalarTy ta tb).Has 0 := ⟨(lo_hi_zero hT).1, (lo_hi_zero hT).2⟩
    have hdeg : ∀ v : Vec Int n, Geo.degenerate v = true ↔ ∀ i, v i = 0 := by
      intro v
      simp [Geo.degenerate]
    unfold LineObj.degenerate
    rw [hdeg, funext_iff]
    refine forall_congr' fun i => ?_
    change (scalarTy ta tb).cast (v i) = 0 ↔ (scalarTy ta tb).cast (a i) = (scalarTy ta tb).cast (b i)
    rw [hvm i]
    constructor
    · intro e
      obtain ⟨c, hc⟩ := cast_mod (scalarTy ta tb) ((scalarTy ta tb).cast (b i) - (scalarTy ta tb).cast (a i))
      rw [e] at hc
      have := cast_unique hT (cast_has hT (b i)) c (x := (scalarTy ta tb).cast (a i)) (by linarith)
      rw [cast_eq hT (cast_has hT (a i))] at this
      exact this
    · intro e
      rw [e, sub_self]
      exact cast_eq hT hz

/-- What an object holds when it was made from points whose type has the difference. -/
theorem make_exact {t : LineTy} {ta tb : IntT} {a b : Vec Int n} {kind : Option LineKind} (ht : Builtin t.coord)
    (hk : Admits t.kind (kind.getD (initialKind t.kind)))
    (hf : ∀ i, t.coord.Has (a i) ∧ t.coord.Has (b i - a i))
    (hd : ∀ i, (arithTy tb ta).Has (a i) ∧ (arithTy tb ta).Has (b i) ∧ (arithTy tb ta).Has (b i - a i)) :
    LineObj.make t ta a tb b (kind.map LineKind.val) false =
      some ⟨a, fun i => b i - a i, (kind.getD (initialKind t.kind)).val⟩ := by
  have hW := arithTy_builtin tb ta
  unfold LineObj.make
  rw [getD_val, setKind_admits hk]
  have hs : pointSub tb b ta a = some fun i => b i - a i := by
    refine allCoords_iff.2 fun i => ?_
    rw [cast_eq hW (hd i).1, cast_eq hW (hd i).2.1, arith_has hW (hd i).2.2]
  simp only [Option.bind_some, Bool.false_eq_true, if_false, hs, Option.map_some, Option.some.injEq]
  congr 1
  · funext i; exact cast_eq ht (hf i).1
  · funext i; exact cast_eq ht (hf i).2

/-- The points of an object that holds the exact difference of two points. -/
theorem points_exact (a b : Vec Int n) (k : LineKind) (p : Vec ℚ n) :
    LineObj.Points ⟨a, fun i => b i - a i, k.val⟩ p ↔ BetweenEnds a k.first b k.last p := by
  unfold LineObj.Points BetweenEnds
  constructor
  · rintro ⟨k', hk, t, ht, hp⟩
    rw [← val_inj hk] at ht
    rw [(lineKinds 0).2.2.2] at ht
    refine ⟨t, ht.1, ht.2, fun i => ?_⟩
    rw [hp i]
    push_cast
    rfl
  · rintro ⟨t, h1, h2, hp⟩
    refine ⟨k, rfl, t, ((lineKinds 0).2.2.2 k t).2 ⟨h1, h2⟩, fun i => ?_⟩
    rw [hp i]
    push_cast
    rfl

theorem betweenEnds_swap (a : Vec Int n) (ka : Endpoint) (b : Vec Int n) (kb : Endpoint) (p : Vec ℚ n) :
    BetweenEnds a ka b kb p ↔ BetweenEnds b kb a ka p := by
  have : ∀ (a : Vec Int n) (ka : Endpoint) (b : Vec Int n) (kb : Endpoint), BetweenEnds a ka b kb p → BetweenEnds b kb a ka p := by
    rintro a ka b kb ⟨t, h1, h2, hp⟩
    refine ⟨1 - t, ?_, ?_, fun i => ?_⟩
    · cases kb <;> simp only [LowerEnd, UpperEnd] at h2 ⊢ <;> linarith
    · cases ka <;> simp only [LowerEnd, UpperEnd] at h1 ⊢ <;> linarith
    · rw [hp i]; ring
  exact ⟨this a ka b kb, this b kb a ka⟩

/-- `make_any_line` from two points with the kinds of their ends: for all nine pairs of ends the result has the points between the
two ends, whichever of them comes first. -/
theorem mkAnyEnds_points {ta tb : IntT} (ha : Builtin ta) (hb : Builtin tb) (a : Vec Int n) (ka : Endpoint) (b : Vec Int n)
    (kb : Endpoint) (h : ∀ i, (scalarTy ta tb).Has (a i) ∧ (scalarTy ta tb).Has (b i) ∧ (scalarTy ta tb).Has (b i - a i) ∧
      (scalarTy ta tb).Has (a i - b i)) :
    (∃ o, mkAnyEnds ta a ka tb b kb = some o ∧ ∀ p, o.Points p ↔ BetweenEnds a ka b kb p) ∧
      ∃ o, mkAnyEnds tb b kb ta a ka = some o ∧ ∀ p, o.Points p ↔ BetweenEnds a ka b kb p := by
  have main : ∀ {ta tb : IntT}, Builtin ta → Builtin tb → ∀ (a : Vec Int n) (ka : Endpoint) (b : Vec Int n) (kb : Endpoint),
      (∀ i, (scalarTy ta tb).Has (a i) ∧ (scalarTy ta tb).Has (b i) ∧ (scalarTy ta tb).Has (b i - a i)) → kb.val ≤ ka.val →
      ∃ o, LineObj.make ⟨scalarTy ta tb, .any⟩ ta a tb b (some (combine ka kb)) false = some o ∧
        ∀ p, o.Points p ↔ BetweenEnds a ka b kb p := by
    intro ta tb ha hb a ka b kb h hle
    obtain ⟨k, h1, h2, h3⟩ := (lineKinds 0).2.2.1 ka kb hle
    have := make_exact (t := ⟨scalarTy ta tb, .any⟩) (ta := ta) (tb := tb) (a := a) (b := b) (kind := some k)
      (scalarTy_builtin ha) trivial (fun i => ⟨(h i).1, (h i).2.2⟩) (fun i => by
        rw [arithTy_comm]
        exact ⟨wide_builtin_has ha (h i).1, wide_builtin_has ha (h i).2.1, wide_builtin_has ha (h i).2.2⟩)
    simp only [Option.map_some, h1] at this
    refine ⟨_, this, fun p => ?_⟩
    simp only [Option.getD_some]
    rw [points_exact a b k p, h2, h3]
  have both : ∀ {ta tb : IntT}, Builtin ta → Builtin tb → ∀ (a : Vec Int n) (ka : Endpoint) (b : Vec Int n) (kb : Endpoint),
      (∀ i, (scalarTy ta tb).Has (a i) ∧ (scalarTy ta tb).Has (b i) ∧ (scalarTy ta tb).Has (b i - a i) ∧
        (scalarTy ta tb).Has (a i - b i)) →
      ∃ o, mkAnyEnds ta a ka tb b kb = some o ∧ ∀ p, o.Points p ↔ BetweenEnds a ka b kb p := by
    intro ta tb ha hb a ka b kb h
    unfold mkAnyEnds
    split
    · next hlt =>
      obtain ⟨o, ho, hp⟩ := main hb ha b kb a ka (fun i => by
        rw [scalarTy_comm]; exact ⟨(h i).2.1, (h i).1, (h i).2.2.2⟩) hlt.le
      exact ⟨o, ho, fun p => (hp p).trans (betweenEnds_swap b kb a ka p)⟩
    · next hle =>
      exact main ha hb a ka b kb (fun i => ⟨(h i).1, (h i).2.1, (h i).2.2.1⟩) (by omega)
  refine ⟨both ha hb a ka b kb h, ?_⟩
  obtain ⟨o, ho, hp⟩ := both hb ha b kb a ka (fun i => by
    rw [scalarTy_comm]; exact ⟨(h i).2.1, (h i).1, (h i).2.2.2, (h i).2.2.1⟩)
  exact ⟨o, ho, fun p => (hp p).trans (betweenEnds_swap b kb a ka p)⟩

/-- `make_line`, `make_ray`, `make_segment` and `make_any_line` with a kind have the points that their names say. -/
theorem mk_points {ta tb : IntT} (ha : Builtin ta) (a b : Vec Int n)
    (h : ∀ i, (scalarTy ta tb).Has (a i) ∧ (scalarTy ta tb).Has (b i) ∧ (scalarTy ta tb).Has (b i - a i)) :
    (∃ o, mkLine ta a tb b false = some o ∧ ∀ p, o.Points p ↔ BetweenEnds a .free b .free p) ∧
      (∃ o, mkRay ta a tb b false = some o ∧ ∀ p, o.Points p ↔ BetweenEnds a .closed b .free p) ∧
      (∃ o, mkSegment ta a tb b false = some o ∧ ∀ p, o.Points p ↔ BetweenEnds a .closed b .closed p) ∧
      ∀ k : LineKind, ∃ o, mkAny ta a tb b k.val false = some o ∧ ∀ p, o.Points p ↔ BetweenEnds a k.first b k.last p := by
  have main : ∀ (K : KindTy) (kind : Option LineKind), Admits K (kind.getD (initialKind K)) →
      ∃ o, LineObj.make ⟨scalarTy ta tb, K⟩ ta a tb b (kind.map LineKind.val) false = some o ∧
        ∀ p, o.Points p ↔ BetweenEnds a (kind.getD (initialKind K)).first b (kind.getD (initialKind K)).last p := by
    intro K kind hk
    refine ⟨_, make_exact (t := ⟨scalarTy ta tb, K⟩) (scalarTy_builtin ha) hk (fun i => ⟨(h i).1, (h i).2.2⟩) (fun i => by
      rw [arithTy_comm]
      exact ⟨wide_builtin_has ha (h i).1, wide_builtin_has ha (h i).2.1, wide_builtin_has ha (h i).2.2⟩), fun p => ?_⟩
    exact points_exact a b _ p
  exact ⟨main (.fixed .free) none rfl, main (.fixed .closedRay) none rfl, main (.fixed .closedSegment) none rfl,
    fun k => main .any (some k) trivial⟩

/-- `make_segment` of two points of the same type: it has the points of the segment between them exactly when the type has all the
differences of their coordinates.  So with unsigned coordinates it does exactly when no coordinate of the second point is smaller. -/
theorem mkSegment_points_iff {t : IntT} (ht : Builtin t) {a b : Vec Int n} (hA : ∀ i, t.Has (a i)) (hB : ∀ i, t.Has (b i))
    {o : LineObj n} (h : mkSegment t a t b false = some o) :
    (∀ p, o.Points p ↔ BetweenEnds a .closed b .closed p) ↔ ∀ i, t.Has (b i - a i) := by
  have hsc : scalarTy t t = t := by simp [scalarTy]
  constructor
  · intro hp i
    have hstart := (make_end ht (.fixed .closedSegment) hA hB h).1
    rw [hsc] at hstart
    have hstart : o.start = a := by rw [hstart]; funext i; exact cast_eq ht (hA i)
    have hvh : ∀ i, t.Has (o.vector i) := by
      unfold mkSegment LineObj.make at h
      obtain ⟨k, -, h⟩ := Option.bind_eq_some_iff.1 h
      simp only [Bool.false_eq_true, if_false] at h
      obtain ⟨v, -, rfl⟩ := Option.map_eq_some_iff.1 h
      intro i
      have := cast_has (scalarTy_builtin (b := t) ht) (v i)
      rw [hsc] at this
      simpa [castPoint, hsc] using this
    -- the second point belongs to the object, and the end of the object to the segment
    obtain ⟨k, hk, s, hs, hb⟩ := (hp fun i => b i).2 ⟨1, by simp [LowerEnd], by simp [UpperEnd], fun i => by ring⟩
    have hkind : k = .closedSegment := by
      unfold mkSegment LineObj.make at h
      obtain ⟨k', hk', h⟩ := Option.bind_eq_some_iff.1 h
      simp only [Bool.false_eq_true, if_false] at h
      obtain ⟨v, -, rfl⟩ := Option.map_eq_some_iff.1 h
      obtain ⟨k2, e1, e2, e3⟩ := setKind_some hk'
      simp only at hk
      rw [e2] at hk
      rw [← val_inj hk]
      exact e3.symm
    subst hkind
    obtain ⟨r, hr0, hr1, hv⟩ := (hp fun i => o.start i + o.vector i).1 ⟨.closedSegment, hk, 1, ⟨by simp, le_refl _⟩, fun i => by ring⟩
    simp only [LowerEnd, UpperEnd] at hr0 hr1
    have e1 : ∀ i, ((b i : ℚ) - a i) = s * o.vector i := fun i => by
      have := hb i
      rw [hstart] at this
      linarith
    have e2 : ∀ i, (o.vector i : ℚ) = r * ((b i : ℚ) - a i) := fun i => by
      have := hv i
      rw [hstart] at this
      linarith
    have e3 : (o.vector i : ℚ) = r * s * o.vector i := by
      have := e2 i
      rw [e1 i] at this
      linarith
    have hfin : ((b i - a i : Int) : ℚ) = o.vector i := by
      push_cast
      by_cases hz : (o.vector i : ℚ) = 0
      · rw [e1 i, hz, mul_zero]
      · have hrs : r * s = 1 := by
          have : (r * s - 1) * (o.vector i : ℚ) = 0 := by linarith
          rcases mul_eq_zero.1 this with h' | h'
          · linarith
          · exact absurd h' hz
        have hs1 : s = 1 := by nlinarith [hs.1, hs.2]
        rw [e1 i, hs1, one_mul]
    have hfin : b i - a i = o.vector i := by exact_mod_cast hfin
    rw [hfin]
    exact hvh i
  · intro hd p
    obtain ⟨o', ho', hp⟩ := (mk_points (tb := t) ht a b (fun i => by rw [hsc]; exact ⟨hA i, hB i, hd i⟩)).2.2.1
    rw [h] at ho'
    cases ho'
    exact hp p

/-- A segment with unsigned coordinates of 32 bits from 3 down to 1 has `end()` 1, but the point 1 does not belong to it and the
point 5 does. -/
theorem mkSegment_unsigned_fails : ∃ o : LineObj 1, mkSegment ⟨false, 32⟩ ![3] ⟨false, 32⟩ ![1] false = some o ∧
    o.stop ⟨⟨false, 32⟩, .fixed .closedSegment⟩ = some ![1] ∧ ¬ o.Points ![1] ∧ o.Points ![5] := by
  refine ⟨⟨![3], ![4294967294], LineKind.closedSegment.val⟩, ?_, ?_, ?_, ?_⟩
  · have h1 : pointSub (⟨false, 32⟩ : IntT) ![1] ⟨false, 32⟩ ![3] = some ![4294967294] := by
      refine allCoords_iff.2 fun i => ?_
      fin_cases i
      decide +kernel
    have h2 : castPoint (⟨false, 32⟩ : IntT) (n := 1) ![3] = ![3] := by funext i; fin_cases i; decide +kernel
    have h3 : castPoint (⟨false, 32⟩ : IntT) (n := 1) ![4294967294] = ![4294967294] := by funext i; fin_cases i; decide +kernel
    unfold mkSegment LineObj.make
    rw [h1]
    simp [scalarTy, setKind, defaultKind, h2, h3]
  · unfold LineObj.stop
    have h1 : pointAdd (⟨false, 32⟩ : IntT) (n := 1) ![3] ⟨false, 32⟩ ![4294967294] = some ![1] := by
      refine allCoords_iff.2 fun i => ?_
      fin_cases i
      decide +kernel
    have h2 : castPoint (⟨false, 32⟩ : IntT) (n := 1) ![1] = ![1] := by funext i; fin_cases i; decide +kernel
    simp only [h1, Option.map_some, h2]
  · rintro ⟨k, hk, t, ht, hp⟩
    cases val_inj (k := .closedSegment) (k' := k) hk
    have := hp 0
    simp at this
    have := ht.1
    linarith
  · refine ⟨.closedSegment, rfl, 2 / 4294967294, ⟨by norm_num, by norm_num⟩, fun i => ?_⟩
    fin_cases i
    norm_num

/-! ### Conversions and assignments -/

/-- A line is converted to another type of lines exactly when that type has lines of its kind. -/
theorem convert_isSome (t : LineTy) (o : LineObj n) :
    (o.convert t).isSome = true ↔ ∃ k : LineKind, o.kind = k.val ∧ Admits t.kind k := by
  unfold LineObj.convert
  rw [Option.isSome_map, Option.isSome_iff_exists]
  constructor
  · rintro ⟨y, hy⟩
    obtain ⟨k, h1, -, h3⟩ := setKind_some hy
    exact ⟨k, h1, h3⟩
  · rintro ⟨k, h1, h2⟩
    exact ⟨k.val, by rw [h1]; exact setKind_admits h2⟩

/-- A conversion keeps the line when the type of the coordinates has the values. -/
theorem convert_same {t : LineTy} (ht : Builtin t.coord) {o o' : LineObj n} (h : o.convert t = some o')
    (hf : ∀ i, t.coord.Has (o.start i) ∧ t.coord.Has (o.vector i)) : o'.start = o.start ∧ o'.vector = o.vector ∧ o'.kind = o.kind := by
  unfold LineObj.convert at h
  obtain ⟨y, hy, rfl⟩ := Option.map_eq_some_iff.1 h
  obtain ⟨k, h1, h2, -⟩ := setKind_some hy
  exact ⟨funext fun i => cast_eq ht (hf i).1, funext fun i => cast_eq ht (hf i).2, by simp only; rw [h1, h2]⟩

/-- An object holds a figure. -/
def Holds (o : LineObj n) (f : Figure n) : Prop := o.start = f.a ∧ (∀ i, o.vector i = f.b i - f.a i) ∧ o.kind = f.kind.val

theorem holds_points {o : LineObj n} {f : Figure n} (h : Holds o f) (p : Vec ℚ n) : o.Points p ↔ f.Points p := by
  obtain ⟨h1, h2, h3⟩ := h
  unfold LineObj.Points Figure.Points
  constructor
  · rintro ⟨k, hk, t, ht, hp⟩
    rw [h3] at hk
    rw [← val_inj hk] at ht
    refine ⟨t, ht, fun i => ?_⟩
    rw [hp i, h1, h2 i]
    push_cast
    rfl
  · rintro ⟨t, ht, hp⟩
    refine ⟨f.kind, h3, t, ht, fun i => ?_⟩
    rw [hp i, h1, h2 i]
    push_cast
    rfl

theorem run_holds {ty : Fin m → LineTy} (hty : ∀ i, Builtin (ty i).coord) {g g' : Fin m → Figure n} {op : LineOp m n}
    (h : Means ty g op g') {s : Fin m → LineObj n} (hs : ∀ i, Holds (s i) (g i)) :
    ∃ s', op.run ty s = some s' ∧ ∀ i, Holds (s' i) (g' i) := by
  have upd : ∀ (i : Fin m) {o : LineObj n} {f : Figure n}, Holds o f →
      ∀ j, Holds (Function.update s i o j) (Function.update g i f j) := by
    intro i o f ho j
    by_cases hj : j = i
    · subst hj; simpa using ho
    · simpa [Function.update_of_ne hj] using hs j
  cases h with
  | points i ta a tb b kind hk hf hd =>
    refine ⟨_, by simp only [LineOp.run]; rw [make_exact (hty i) hk hf hd]; rfl, upd i ⟨rfl, fun _ => rfl, rfl⟩⟩
  | vector i ta a tb v kind hk hf =>
    have : LineObj.make (ty i) ta a tb v (kind.map LineKind.val) true = some ⟨a, v, (kind.getD (initialKind (ty i).kind)).val⟩ := by
      unfold LineObj.make
      rw [getD_val, setKind_admits hk]
      simp only [Option.bind_some, if_true, Option.some.injEq]
      congr 1
      · funext j; exact cast_eq (hty i) (hf j).1
      · funext j
        have := (hf j).2
        simp only [add_sub_cancel_left] at this
        exact cast_eq (hty i) this
    refine ⟨_, by simp only [LineOp.run]; rw [this]; rfl, upd i ⟨rfl, fun _ => by simp, rfl⟩⟩
  | copy i j hk hf =>
    obtain ⟨h1, h2, h3⟩ := hs j
    have hsome : ((s j).convert (ty i)).isSome = true := (convert_isSome _ _).2 ⟨_, h3, hk⟩
    obtain ⟨o, ho⟩ := Option.isSome_iff_exists.1 hsome
    obtain ⟨e1, e2, e3⟩ := convert_same (hty i) ho (fun l => by
      rw [h1, h2 l]; exact hf l)
    refine ⟨_, by simp only [LineOp.run]; rw [ho]; rfl, upd i ⟨by rw [e1, h1], fun l => by rw [e2, h2 l], by rw [e3, h3]⟩⟩

theorem runAll_holds {ty : Fin m → LineTy} (hty : ∀ i, Builtin (ty i).coord) {g g' : Fin m → Figure n} {ops : List (LineOp m n)}
    (h : MeansAll ty g ops g') : ∀ {s : Fin m → LineObj n}, (∀ i, Holds (s i) (g i)) →
    ∃ s', LineOp.runAll ty ops s = some s' ∧ ∀ i, Holds (s' i) (g' i) := by
  induction h with
  | nil g => exact fun {s} hs => ⟨s, rfl, hs⟩
  | cons h _ ih =>
    intro s hs
    obtain ⟨s1, e1, h1⟩ := run_holds hty h hs
    obtain ⟨s2, e2, h2⟩ := ih h1
    refine ⟨s2, ?_, h2⟩
    unfold LineOp.runAll at e2 ⊢
    rw [List.foldlM_cons, e1]
    exact e2

/-- The variables at the start of a program. -/
theorem default_holds (t : LineTy) : ∃ o : LineObj n, LineObj.default t = some o ∧ Holds o ⟨fun _ => 0, fun _ => 0, initialKind t.kind⟩ := by
  have h := defaultKind_val t.kind
  refine ⟨⟨fun _ => 0, fun _ => 0, (initialKind t.kind).val⟩, ?_, rfl, fun _ => rfl, rfl⟩
  unfold LineObj.default
  rw [h.1, setKind_admits h.2]
  rfl

/-- Any program that makes lines from points and assigns lines of one type to variables of another type: when the types have the
values and the kinds that are assigned, it runs without a failed assertion, and in the end every variable has the points of the line,
ray or segment that the program means it to have. -/
theorem lineProgram_points {ty : Fin m → LineTy} (hty : ∀ i, Builtin (ty i).coord) {g' : Fin m → Figure n} {ops : List (LineOp m n)}
    (h : MeansAll ty (fun i => ⟨fun _ => 0, fun _ => 0, initialKind (ty i).kind⟩) ops g') :
    ∃ s s', (∀ i, LineObj.default (ty i) = some (s i)) ∧ LineOp.runAll ty ops s = some s' ∧
      ∀ i, (∀ p, (s' i).Points p ↔ (g' i).Points p) ∧ (s' i).kind = (g' i).kind.val := by
  choose s hs1 hs2 using fun i => default_holds (n := n) (ty i)
  obtain ⟨s', e, h'⟩ := runAll_holds hty h hs2
  exact ⟨s, s', hs1, e, fun i => ⟨holds_points (h' i), (h' i).2.2⟩⟩

/-- Whatever a program does with lines, every variable has a kind that its type has. -/
theorem lineProgram_kinds {ty : Fin m → LineTy} {ops : List (LineOp m n)} {s s' : Fin m → LineObj n}
    (h0 : ∀ i, LineObj.default (ty i) = some (s i)) (h : LineOp.runAll ty ops s = some s') (i : Fin m) :
    ∃ k : LineKind, (s' i).kind = k.val ∧ Admits (ty i).kind k := by
  have base : ∀ i, ∃ k : LineKind, (s i).kind = k.val ∧ Admits (ty i).kind k := by
    intro i
    obtain ⟨o, ho, hh⟩ := default_holds (n := n) (ty i)
    rw [h0 i] at ho
    cases ho
    exact ⟨_, hh.2.2, (defaultKind_val (ty i).kind).2⟩
  clear h0
  induction ops generalizing s with
  | nil => cases h; exact base i
  | cons op ops ih =>
    unfold LineOp.runAll at h
    rw [List.foldlM_cons] at h
    obtain ⟨s1, h1, h2⟩ := Option.bind_eq_some_iff.1 h
    refine ih h2 fun j => ?_
    have upd : ∀ (l : Fin m) {o : LineObj n}, (∃ k : LineKind, o.kind = k.val ∧ Admits (ty l).kind k) →
        ∃ k : LineKind, (Function.update s l o j).kind = k.val ∧ Admits (ty j).kind k := by
      intro l o ho
      by_cases hj : j = l
      · subst hj; simpa using ho
      · simpa [Function.update_of_ne hj] using base j
    cases op with
    | make l ta a tb b kind vector =>
      obtain ⟨o, ho, rfl⟩ := Option.map_eq_some_iff.1 h1
      refine upd l ?_
      unfold LineObj.make at ho
      obtain ⟨y, hy, ho⟩ := Option.bind_eq_some_iff.1 ho
      obtain ⟨k, -, e2, e3⟩ := setKind_some hy
      cases vector
      · simp only [Bool.false_eq_true, if_false] at ho
        obtain ⟨v, -, rfl⟩ := Option.map_eq_some_iff.1 ho
        exact ⟨k, e2, e3⟩
      · cases ho
        exact ⟨k, e2, e3⟩
    | assign l r =>
      obtain ⟨o, ho, rfl⟩ := Option.map_eq_some_iff.1 h1
      refine upd l ?_
      obtain ⟨y, hy, rfl⟩ := Option.map_eq_some_iff.1 ho
      obtain ⟨k, -, e2, e3⟩ := setKind_some hy
      exact ⟨k, e2, e3⟩

/-- Converting a segment to narrower coordinates changes its points without any assertion. -/
theorem convert_narrow_fails : ∃ o o' : LineObj 1, mkSegment ⟨true, 32⟩ ![0] ⟨true, 32⟩ ![300] false = some o ∧
    o.convert ⟨⟨true, 8⟩, .any⟩ = some o' ∧ o.Points ![300] ∧ ¬ o'.Points ![300] := by
  refine ⟨⟨![0], ![300], LineKind.closedSegment.val⟩, ⟨![0], ![44], LineKind.closedSegment.val⟩, ?_, ?_, ?_, ?_⟩
  · have h1 : pointSub (⟨true, 32⟩ : IntT) ![300] ⟨true, 32⟩ ![0] = some ![300] := by
      refine allCoords_iff.2 fun i => ?_
      fin_cases i
      decide +kernel
    have h2 : castPoint (⟨true, 32⟩ : IntT) (n := 1) ![0] = ![0] := by funext i; fin_cases i; decide +kernel
    have h3 : castPoint (⟨true, 32⟩ : IntT) (n := 1) ![300] = ![300] := by funext i; fin_cases i; decide +kernel
    unfold mkSegment LineObj.make
    rw [h1]
    simp [scalarTy, setKind, defaultKind, h2, h3]
  · have h2 : castPoint (⟨true, 8⟩ : IntT) (n := 1) ![0] = ![0] := by funext i; fin_cases i; decide +kernel
    have h3 : castPoint (⟨true, 8⟩ : IntT) (n := 1) ![300] = ![44] := by funext i; fin_cases i; decide +kernel
    unfold LineObj.convert
    have : setKind .any LineKind.closedSegment.val = some LineKind.closedSegment.val := by decide
    simp only [this, Option.map_some, h2, h3]
  · refine ⟨.closedSegment, rfl, 1, ⟨by norm_num, by norm_num⟩, fun i => ?_⟩
    fin_cases i
    norm_num
  · rintro ⟨k, hk, t, ht, hp⟩
    cases val_inj (k := .closedSegment) (k' := k) hk
    have := hp 0
    simp at this
    have := ht.2
    linarith

/-! ### The hypotheses can be met -/

example : Builtin ⟨false, 8⟩ ∧ Builtin ⟨true, 64⟩ := ⟨Or.inl (by decide), Or.inr (by decide)⟩

/-- `uint8_t` points (200, 3) and (100, 7). -/
example : ∃ o, LineObj.make ⟨scalarTy ⟨false, 8⟩ ⟨false, 8⟩, .any⟩ ⟨false, 8⟩ ![200, 3] ⟨false, 8⟩ ![100, 7] (some 6) false = some o ∧
    o.start = ![200, 3] ∧ o.stop ⟨⟨false, 8⟩, .any⟩ = some ![100, 7] := by
  have hs : (LineObj.make ⟨scalarTy ⟨false, 8⟩ ⟨false, 8⟩, .any⟩ ⟨false, 8⟩ ![200, 3] ⟨false, 8⟩ ![100, 7] (some 6) false).isSome = true := by
    rw [make_isSome]
    refine ⟨fun x hx => ⟨.halfOpenSegment, (Option.some.inj hx).symm, trivial⟩, Or.inr fun _ => ?_⟩
    decide +kernel
  obtain ⟨o, ho⟩ := Option.isSome_iff_exists.1 hs
  have := make_end (Or.inl (by decide)) .any (by decide +kernel) (by decide +kernel) ho
  have e1 : castPoint (scalarTy ⟨false, 8⟩ ⟨false, 8⟩) (n := 2) ![200, 3] = ![200, 3] := by decide +kernel
  have e2 : castPoint (scalarTy ⟨false, 8⟩ ⟨false, 8⟩) (n := 2) ![100, 7] = ![100, 7] := by decide +kernel
  rw [e1, e2] at this
  exact ⟨o, ho, this.1, this.2.1⟩

example : ∀ i, (scalarTy ⟨true, 16⟩ ⟨true, 32⟩).Has ((![5, -3] : Vec Int 2) i) ∧ (scalarTy ⟨true, 16⟩ ⟨true, 32⟩).Has ((![9, 9] : Vec Int 2) i) ∧
    (scalarTy ⟨true, 16⟩ ⟨true, 32⟩).Has ((![9, 9] : Vec Int 2) i - (![5, -3] : Vec Int 2) i) ∧
      (scalarTy ⟨true, 16⟩ ⟨true, 32⟩).Has ((![5, -3] : Vec Int 2) i - (![9, 9] : Vec Int 2) i) := by decide +kernel

/-- A segment goes into a variable for any line and from there into a ray: the last step means nothing, and stops the program. -/
example : ∃ g' : Fin 2 → Figure 1, MeansAll ![⟨⟨true, 32⟩, .fixed .closedSegment⟩, ⟨⟨true, 64⟩, .any⟩]
    (fun i => ⟨fun _ => 0, fun _ => 0, initialKind ((![⟨⟨true, 32⟩, .fixed .closedSegment⟩, ⟨⟨true, 64⟩, .any⟩] : Fin 2 → LineTy) i).kind⟩)
    [.make 0 ⟨true, 32⟩ ![4] ⟨true, 16⟩ ![9] none false, .assign 1 0] g' :=
  ⟨_, .cons (.points 0 ⟨true, 32⟩ ![4] ⟨true, 16⟩ ![9] none rfl (by unfold Figure.Fits; decide +kernel) (by decide +kernel))
    (.cons (.copy 1 0 trivial (by unfold Figure.Fits; decide +kernel)) (.nil _))⟩

example : (LineObj.convert (n := 1) ⟨⟨true, 32⟩, .fixed .closedRay⟩ ⟨![0], ![1], LineKind.closedSegment.val⟩).isSome = false := by decide +kernel

end Actl.Geo
