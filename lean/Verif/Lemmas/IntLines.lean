import Verif.Model.IntLines
import Verif.Lemmas.FloatLines
import Verif.Props.IntPolygon
import Verif.Props.WithinLine

/-! Lemmas for C131. -/

namespace Actl.Geo

variable {F : Type*} [Field F] [LinearOrder F] [IsStrictOrderedRing F]

/-- The same line in an ordered field. -/
def exactLine (l : Line Int 2) : Line F 2 := { start := exact l.start, vector := exact l.vector, kind := l.kind }

/-- The coordinates are numbers of a signed type of `w` bits. -/
def FitsType (w : Nat) (p : Vec Int 2) : Prop := ∀ i, -2 ^ (w - 1) ≤ p i ∧ p i < 2 ^ (w - 1)

theorem exactLine_through (a b : Vec Int 2) (k : LineKind) :
    (exactLine (Line.through a b k) : Line F 2) = Line.through (exact a) (exact b) k := by
  simp [exactLine, Line.through, exact_sub]

/-! ### Operations that fit -/

/-- The coordinates are at most `D` in absolute value. -/
def Bounded (D : Int) (p : Vec Int 2) : Prop := ∀ i, -D ≤ p i ∧ p i ≤ D

theorem bounded_diff {c p q : Vec Int 2} {D : Int} (hp : InBox c D p) (hq : InBox c D q) : Bounded D (p - q) := by
  obtain ⟨p1, p2, p3, p4⟩ := hp
  obtain ⟨q1, q2, q3, q4⟩ := hq
  intro i
  match i with
  | 0 => constructor <;> simp only [Pi.sub_apply] <;> linarith
  | 1 => constructor <;> simp only [Pi.sub_apply] <;> linarith

theorem bounded_mul {D x y : Int} (hx : -D ≤ x ∧ x ≤ D) (hy : -D ≤ y ∧ y ≤ D) : -(D * D) ≤ x * y ∧ x * y ≤ D * D := by
  obtain ⟨h1, h2⟩ := hx
  obtain ⟨h3, h4⟩ := hy
  constructor <;> nlinarith

theorem areaI_bounded {W : Nat} {D : Int} {p q : Vec Int 2} (hp : Bounded D p) (hq : Bounded D q)
    (hW : 2 * (D * D) < 2 ^ (W - 1)) :
    areaI W p q = some (area p q) ∧ -(2 * (D * D)) ≤ area p q ∧ area p q ≤ 2 * (D * D) := by
  obtain ⟨a1, a2⟩ := bounded_mul (hp 0) (hq 1)
  obtain ⟨b1, b2⟩ := bounded_mul (hp 1) (hq 0)
  have h0 : 0 ≤ D * D := mul_self_nonneg D
  refine ⟨?_, by unfold area; linarith, by unfold area; linarith⟩
  rw [areaI, fitInt_some (by linarith) (by linarith), fitInt_some (by linarith) (by linarith)]
  simp only [Option.bind_some]
  rw [fitInt_some (by linarith) (by linarith)]
  rfl

theorem dotI_bounded {W : Nat} {D : Int} {p q : Vec Int 2} (hp : Bounded D p) (hq : Bounded D q)
    (hW : 2 * (D * D) < 2 ^ (W - 1)) : dotI W p q = some (p 0 * q 0 + p 1 * q 1) := by
  obtain ⟨a1, a2⟩ := bounded_mul (hp 0) (hq 0)
  obtain ⟨b1, b2⟩ := bounded_mul (hp 1) (hq 1)
  have h0 : 0 ≤ D * D := mul_self_nonneg D
  rw [dotI, fitInt_some (by linarith) (by linarith), fitInt_some (by linarith) (by linarith)]
  simp only [Option.bind_some]
  rw [fitInt_some (by linarith) (by linarith)]

omit [LinearOrder F] [IsStrictOrderedRing F] in
theorem dot_exact (p q : Vec Int 2) : dot (exact p : Vec F 2) (exact q) = ((p 0 * q 0 + p 1 * q 1 : Int) : F) := by
  have ey : dot (exact p : Vec F 2) (exact q) = 0 + exact p 0 * exact q 0 + exact p 1 * exact q 1 := rfl
  rw [ey]
  simp [exact]

theorem stopI_through {w : Nat} {a b : Vec Int 2} (hb : FitsType w b) (k : LineKind) :
    stopI w (Line.through a b k) = some b := by
  have e : ∀ i, (Line.through a b k).start i + (Line.through a b k).vector i = b i := by
    intro i
    simp [Line.through]
  rw [stopI, e, e, fitInt_some (hb 0).1 (hb 0).2, fitInt_some (hb 1).1 (hb 1).2]
  simp only [Option.bind_some, Option.map_some, Option.some.injEq]
  exact vec2_ext rfl rfl

/-! ### The same decisions -/

theorem endpointTest_exact (k : Endpoint) (x y : Int) : endpointTest k (x : F) (y : F) = endpointTest k x y := by
  cases k <;> simp [endpointTest]

theorem endpointTest_exact_zero (k : Endpoint) (y : Int) : endpointTest k 0 (y : F) = endpointTest k 0 y := by
  rw [← endpointTest_exact (F := F), Int.cast_zero]

theorem lineTest_exact (k : LineKind) (x y : Int) : lineTest k (x : F) (y : F) = lineTest k x y := by
  rw [lineTest, lineTest, endpointTest_exact, endpointTest_exact_zero]

theorem crossTestI_exact {W : Nat} {B t a b : Int} (hW : B < 2 ^ (W - 1)) (ht : -B ≤ t ∧ t ≤ B) (ha : -B ≤ a ∧ a ≤ B)
    (hb : -B ≤ b ∧ b ≤ B) (l r : Line F 2) :
    crossTestI W l.kind r.kind t a b = some (crossTest l r (t : F) a b) := by
  unfold crossTestI crossTest
  by_cases h : t < 0
  · have h' : (t : F) < 0 := Int.cast_lt_zero.2 h
    rw [if_pos h, if_pos h', fitInt_some (by linarith) (by linarith), fitInt_some (by linarith) (by linarith),
      fitInt_some (by linarith) (by linarith)]
    simp only [Option.bind_some, Option.map_some, ← Int.cast_neg, lineTest_exact]
  · have h' : ¬ (t : F) < 0 := fun x => h (Int.cast_lt_zero.1 x)
    rw [if_neg h, if_neg h']
    simp only [lineTest_exact]

/-- An end of a line in an ordered field. -/
def exactEnd (e : Vec Int 2 × Endpoint) : End F := (exact e.1, e.2)

theorem maxEndpointI_exact (l r : Vec Int 2 × Endpoint) (s : Bool) :
    maxEndpoint (exactEnd l : End F) (exactEnd r) s = exactEnd (maxEndpointI l r s) := by
  have e1 : ∀ x y : Vec Int 2 × Endpoint, less (exactEnd x : End F).1 (exactEnd y : End F).1 = less x.1 y.1 :=
    fun x y => less_exact x.1 y.1
  have e2 : ∀ x : Vec Int 2 × Endpoint, (exactEnd x : End F).2 = x.2 := fun _ => rfl
  unfold maxEndpoint maxEndpointI
  simp only [e1, e2, apply_ite (exactEnd : Vec Int 2 × Endpoint → End F)]

theorem maxEndpointI_cases (l r : Vec Int 2 × Endpoint) (s : Bool) : maxEndpointI l r s = l ∨ maxEndpointI l r s = r := by
  unfold maxEndpointI
  repeat' split
  all_goals simp

theorem endpointTestPointI_exact (k : Endpoint) (p q : Vec Int 2) :
    endpointTestPoint k (exact p : Vec F 2) (exact q) = endpointTestPointI k p q := by
  cases k <;> simp [endpointTestPoint, endpointTestPointI, less_exact]

omit [LinearOrder F] [IsStrictOrderedRing F] in
theorem exact_zero : (exact ![0, 0] : Vec F 2) = 0 := vec2_ext (by simp [exact]) (by simp [exact])

theorem getPointI_exact {w : Nat} {a b : Vec Int 2} (hb : FitsType w b) (k : LineKind) (s : Bool) :
    ∃ e, getPointI w (Line.through a b k) s = some e ∧ (e.1 = a ∨ e.1 = b) ∧
      getPoint (Line.through (exact a) (exact b) k : Line F 2) s = exactEnd e := by
  have h1 : less (0 : Vec F 2) (Line.through (exact a) (exact b) k : Line F 2).vector =
      less ![0, 0] (Line.through a b k).vector := by
    rw [← exact_zero, ← less_exact (F := F), Line.through, Line.through, exact_sub]
  unfold getPointI getPoint
  rw [h1, stopI_through hb, stop_through]
  by_cases hc : (less ![0, 0] (Line.through a b k).vector == s) = true
  · rw [if_pos hc, if_pos hc]
    exact ⟨_, rfl, Or.inl rfl, rfl⟩
  · rw [if_neg hc, if_neg hc]
    exact ⟨_, rfl, Or.inr rfl, rfl⟩

theorem throughI_box {w : Nat} {c a b : Vec Int 2} {D : Int} (hw : D < 2 ^ (w - 1)) (ha : InBox c D a) (hb : InBox c D b)
    (k : LineKind) : throughI w a b k = some (Line.through a b k) := by
  rw [throughI, sub_box hb ha hw]
  rfl

theorem kind_some (ka kb : Endpoint) (h : kb.val ≤ ka.val) : ∃ k, LineKind.ofVal (combine ka kb) = some k := by
  cases ka <;> cases kb <;> first | (exfalso; revert h; decide) | exact ⟨_, rfl⟩

theorem makeAnyLineI_box {w : Nat} {c a b : Vec Int 2} {D : Int} (hw : D < 2 ^ (w - 1)) (ha : InBox c D a)
    (hb : InBox c D b) (ka kb : Endpoint) :
    ∃ m, makeAnyLineI w a ka b kb = some m ∧ makeAnyLine (exact a : Vec F 2) ka (exact b) kb = some (exactLine m) := by
  unfold makeAnyLineI makeAnyLine
  by_cases h : ka.val < kb.val
  · obtain ⟨k, hk⟩ := kind_some kb ka h.le
    rw [if_pos h, if_pos h, hk]
    exact ⟨_, throughI_box hw hb ha k, congrArg some (exactLine_through b a k).symm⟩
  · obtain ⟨k, hk⟩ := kind_some ka kb (not_lt.1 h)
    rw [if_neg h, if_neg h, hk]
    exact ⟨_, throughI_box hw ha hb k, congrArg some (exactLine_through a b k).symm⟩

theorem commonLineI_box {w : Nat} {o a b c d : Vec Int 2} {D : Int} (hw : D < 2 ^ (w - 1)) (ha : InBox o D a)
    (hb : InBox o D b) (hc : InBox o D c) (hd : InBox o D d) (fb : FitsType w b) (fd : FitsType w d) (k m : LineKind) :
    ∃ out, commonLineI w (Line.through a b k) (Line.through c d m) = some out ∧
      out.map exactLine = commonLine (Line.through (exact a) (exact b) k : Line F 2) (Line.through (exact c) (exact d) m) := by
  obtain ⟨l1, e1, i1, g1⟩ := getPointI_exact (F := F) (a := a) fb k true
  obtain ⟨l2, e2, i2, g2⟩ := getPointI_exact (F := F) (a := a) fb k false
  obtain ⟨r1, f1, j1, h1⟩ := getPointI_exact (F := F) (a := c) fd m true
  obtain ⟨r2, f2, j2, h2⟩ := getPointI_exact (F := F) (a := c) fd m false
  unfold commonLineI commonLine
  rw [e1, e2, f1, f2, g1, g2, h1, h2]
  simp only [Option.bind_some, maxEndpointI_exact]
  have box : ∀ {x y : Vec Int 2 × Endpoint} (s : Bool), (x.1 = a ∨ x.1 = b) → (y.1 = c ∨ y.1 = d) →
      InBox o D (maxEndpointI x y s).1 := by
    intro x y s hx hy
    rcases maxEndpointI_cases x y s with e | e <;> rw [e]
    · rcases hx with h | h <;> rw [h] <;> assumption
    · rcases hy with h | h <;> rw [h] <;> assumption
  obtain ⟨z, z1, z2⟩ := makeAnyLineI_box (F := F) hw (box true i1 j1) (box false i2 j2) (maxEndpointI l1 r1 true).2
    (maxEndpointI l2 r2 false).2
  have e3 : endpointTestPoint (exactEnd (maxEndpointI l1 r1 true) : End F).2 (exactEnd (maxEndpointI l1 r1 true) : End F).1
      (exactEnd (maxEndpointI l2 r2 false) : End F).1 = endpointTestPointI (maxEndpointI l1 r1 true).2
      (maxEndpointI l1 r1 true).1 (maxEndpointI l2 r2 false).1 := endpointTestPointI_exact _ _ _
  rw [e3]
  cases endpointTestPointI (maxEndpointI l1 r1 true).2 (maxEndpointI l1 r1 true).1 (maxEndpointI l2 r2 false).1
  · exact ⟨[], rfl, rfl⟩
  · refine ⟨[z], ?_, ?_⟩
    · simp only [if_true, z1, Option.map_some]
    · simp only [if_true]
      rw [show makeAnyLine (exactEnd (maxEndpointI l1 r1 true) : End F).1 (exactEnd (maxEndpointI l1 r1 true) : End F).2
        (exactEnd (maxEndpointI l2 r2 false) : End F).1 (exactEnd (maxEndpointI l2 r2 false) : End F).2 = _ from z2]
      rfl

end Actl.Geo
