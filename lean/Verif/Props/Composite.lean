import Verif.Spec.Composite
import Verif.Props.Expression

/-! C97: comparisons of ranges and tuples. -/

namespace Actl.Composite

open Actl.Expr (Ty Val Term)

/-! ### Values -/

/-- An operation evaluates to a value for all large enough fuel. -/
private def Gives (t : CTerm) (x y : Data × Shape) (v : Val) : Prop := ∃ n₀, ∀ n, n₀ ≤ n → eval n t [x, y] = some v

/-- An operation that is resolved. -/
private def Stable : CTerm → Prop
  | .leaf _ => True
  | .comp _ _ => True
  | _ => False

private theorem stable_resolve {t : CTerm} (h : Stable t) (n : Nat) (shs : List Shape) :
    resolve (n + 1) t shs [] = some t := by
  cases t <;> first | rfl | exact h.elim

private theorem eval_stable {t : CTerm} (h : Stable t) (n : Nat) (args : List (Data × Shape)) :
    eval (n + 2) t args = run (n + 1) t args := by
  rw [eval, stable_resolve h, Option.bind_some]

private theorem gives_leaf {t : Term} {a b v : Val} {S T : Shape}
    (h : Expr.Evals (.expr t [.val a, .val b]) v) : Gives (.leaf t) (.num a, S) (.num b, T) v := by
  obtain ⟨n₀, h⟩ := h
  refine ⟨n₀ + 2, fun n hn => ?_⟩
  obtain ⟨n, rfl⟩ : ∃ m, n = m + 2 := ⟨n - 2, by omega⟩
  rw [eval_stable (by trivial), run]
  simpa [numbers] using h (n + 1) (by omega)

private theorem gives_comp {o : Outer} {inner : List CTerm} {x y : Data × Shape} {v : Val}
    (h : ∃ n₀, ∀ n, n₀ ≤ n → composite (fun t x y => eval n t [x, y]) o inner x y = some v) :
    Gives (.comp o inner) x y v := by
  obtain ⟨n₀, h⟩ := h
  refine ⟨n₀ + 2, fun n hn => ?_⟩
  obtain ⟨n, rfl⟩ : ∃ m, n = m + 2 := ⟨n - 2, by omega⟩
  rw [eval_stable (by trivial), run]
  exact h n (by omega)

private theorem truth_bool (b : Bool) : (Val.bool b).truth = b := by
  cases b <;> rfl

/-! ### Equality -/

private theorem resolve_scalar (n : Nat) (o : Cmp) (a b : Ty) (ps : List Rat) :
    resolve (n + 1) (.op o) [.scalar a, .scalar b] ps = (Expr.resolve n (.op o.scalarOp) [a, b] ps).map .leaf := rfl

private theorem resolve_eqRange (n : Nat) (a b : Shape) (ps : List Rat) :
    resolve (n + 1) (.op .isEqual) [.range a, .range b] ps =
      (resolve n (.op .isEqual) [a, b] []).bind fun i => resolve n (.comp .eqRange [i]) [.range a, .range b] ps := rfl

private theorem resolve_eqTuple (n : Nat) (as bs : List Shape) (ps : List Rat) :
    resolve (n + 1) (.op .isEqual) [.tuple as, .tuple bs] ps =
      (pairwise (fun a b => resolve n (.op .isEqual) [a, b] []) as bs).bind fun is =>
        resolve n (.comp .eqTuple is) [.tuple as, .tuple bs] ps := rfl

/-- The operation tells whether the arguments are close. -/
private def Tells (t : CTerm) (S T : Shape) (tol : Option Rat) : Prop :=
  ∀ x y, HasShape x S → HasShape y T → ∃ b, Gives t (x, S) (y, T) (.bool b) ∧ (b = true ↔ Close tol x y)

private theorem equalRange_tells {t : CTerm} {S T : Shape} {tol : Option Rat} (h : Tells t S T tol) :
    ∀ xs ys, HasShapeAll xs S → HasShapeAll ys T →
      ∃ b, (∃ n₀, ∀ n, n₀ ≤ n → equalRange (fun x y => eval n t [(x, S), (y, T)]) xs ys = some (.bool b)) ∧
        (b = true ↔ CloseAll tol xs ys)
  | [], [], _, _ => ⟨true, ⟨0, fun _ _ => rfl⟩, by simp [CloseAll]⟩
  | [], _ :: _, _, _ => ⟨false, ⟨0, fun _ _ => rfl⟩, by simp [CloseAll]⟩
  | _ :: _, [], _, _ => ⟨false, ⟨0, fun _ _ => rfl⟩, by simp [CloseAll]⟩
  | x :: xs, y :: ys, hx, hy => by
    rw [HasShapeAll] at hx hy
    obtain ⟨b, ⟨n₁, h1⟩, hb⟩ := h x y hx.1 hy.1
    obtain ⟨c, ⟨n₂, h2⟩, hc⟩ := equalRange_tells h xs ys hx.2 hy.2
    cases b with
    | false =>
      refine ⟨false, ⟨n₁, fun n hn => ?_⟩, ?_⟩
      · rw [equalRange, h1 n hn]
        rfl
      · rw [CloseAll, ← hb]
        simp
    | true =>
      refine ⟨c, ⟨max n₁ n₂, fun n hn => ?_⟩, ?_⟩
      · rw [equalRange, h1 n (by omega), Option.bind_some, truth_bool, if_pos rfl, h2 n (by omega)]
      · rw [CloseAll, ← hb, hc]
        simp

/-- The operations at the positions of a tuple. -/
private inductive TellsAll (tol : Option Rat) : List CTerm → List Shape → List Shape → Prop
  | nil : TellsAll tol [] [] []
  | cons {t ts a as b bs} : Tells t a b tol → TellsAll tol ts as bs → TellsAll tol (t :: ts) (a :: as) (b :: bs)

private theorem equalTuple_tells {tol : Option Rat} {ts : List CTerm} {as bs : List Shape} (h : TellsAll tol ts as bs) :
    ∀ xs ys, HaveShapes xs as → HaveShapes ys bs →
      ∃ b, (∃ n₀, ∀ n, n₀ ≤ n →
          equalTuple (zipCalls (fun t x y => eval n t [x, y]) ts xs as ys bs) = some (.bool b)) ∧
        (b = true ↔ CloseAll tol xs ys) := by
  induction h with
  | nil =>
    intro xs ys hx hy
    match xs, ys, hx, hy with
    | [], [], _, _ => exact ⟨true, ⟨0, fun _ _ => rfl⟩, by simp [CloseAll]⟩
    | _ :: _, _, hx, _ => simp [HaveShapes] at hx
    | [], _ :: _, _, hy => simp [HaveShapes] at hy
  | cons ht _ ih =>
    intro xs ys hx hy
    match xs, ys, hx, hy with
    | [], _, hx, _ => simp [HaveShapes] at hx
    | _ :: _, [], _, hy => simp [HaveShapes] at hy
    | x :: xs, y :: ys, hx, hy =>
      rw [HaveShapes] at hx hy
      obtain ⟨b, ⟨n₁, h1⟩, hb⟩ := ht x y hx.1 hy.1
      obtain ⟨c, ⟨n₂, h2⟩, hc⟩ := ih xs ys hx.2 hy.2
      cases b with
      | false =>
        refine ⟨false, ⟨n₁, fun n hn => ?_⟩, ?_⟩
        · rw [zipCalls, equalTuple, h1 n hn]
          rfl
        · rw [CloseAll, ← hb]
          simp
      | true =>
        refine ⟨c, ⟨max n₁ n₂, fun n hn => ?_⟩, ?_⟩
        · rw [zipCalls, equalTuple, h1 n (by omega), Option.bind_some, truth_bool, if_pos rfl, h2 n (by omega)]
        · rw [CloseAll, ← hb, hc]
          simp

private theorem TellsAll.length {tol : Option Rat} {ts : List CTerm} {as bs : List Shape} (h : TellsAll tol ts as bs) :
    ts.length = as.length := by
  induction h with
  | nil => rfl
  | cons _ _ ih => simp [ih]

/-- What `is_equal` is resolved to without policies. -/
private structure EqOp (S T : Shape) (t : CTerm) : Prop where
  stable : Stable t
  resolves : ∃ n₀, ∀ n, n₀ ≤ n → resolve n (.op .isEqual) [S, T] [] = some t
  tells : Tells t S T none
  stable' : ∀ eps, Stable (applyIfCan eps t)
  policy : ∀ eps, ∃ n₀, ∀ n, n₀ ≤ n → resolve n (.op .isEqual) [S, T] [eps] = some (applyIfCan eps t)
  tells' : ∀ eps, Tells (applyIfCan eps t) S T (some eps)

/-- The same at the positions of a tuple. -/
private inductive EqOps : List Shape → List Shape → List CTerm → Prop
  | nil : EqOps [] [] []
  | cons {a as b bs t ts} : EqOp a b t → EqOps as bs ts → EqOps (a :: as) (b :: bs) (t :: ts)

private theorem tells_comp_range {t : CTerm} {S T : Shape} {tol : Option Rat} (h : Tells t S T tol) :
    Tells (.comp .eqRange [t]) (.range S) (.range T) tol := by
  intro x y hx hy
  match x, y, hx, hy with
  | .num _, _, hx, _ => simp [HasShape] at hx
  | .tuple _, _, hx, _ => simp [HasShape] at hx
  | .range _, .num _, _, hy => simp [HasShape] at hy
  | .range _, .tuple _, _, hy => simp [HasShape] at hy
  | .range xs, .range ys, hx, hy =>
    rw [HasShape] at hx hy
    obtain ⟨b, h1, h2⟩ := equalRange_tells h xs ys hx hy
    exact ⟨b, gives_comp h1, by rw [Close]; exact h2⟩

private theorem tells_comp_tuple {ts : List CTerm} {as bs : List Shape} {tol : Option Rat}
    (h : TellsAll tol ts as bs) (h1 : as.length ≠ 1) : Tells (.comp .eqTuple ts) (.tuple as) (.tuple bs) tol := by
  intro x y hx hy
  match x, y, hx, hy with
  | .num _, _, hx, _ => simp [HasShape] at hx
  | .range _, _, hx, _ => simp [HasShape] at hx
  | .tuple _, .num _, _, hy => simp [HasShape] at hy
  | .tuple _, .range _, _, hy => simp [HasShape] at hy
  | .tuple xs, .tuple ys, hx, hy =>
    rw [HasShape] at hx hy
    obtain ⟨b, ⟨n₀, h2⟩, h3⟩ := equalTuple_tells h xs ys hx hy
    refine ⟨b, gives_comp ⟨n₀, fun n hn => ?_⟩, by rw [Close]; exact h3⟩
    rw [composite, if_neg (by rw [h.length]; exact h1)]
    exact h2 n hn

private theorem leaf_tells {t : Term} {a b : Ty} {tol : Option Rat}
    (h : ∀ v w : Val, v.ty = a → w.ty = b →
      ∃ c, Expr.Evals (.expr t [.val v, .val w]) (.bool c) ∧ (c = true ↔ Near tol v.num w.num)) :
    Tells (.leaf t) (.scalar a) (.scalar b) tol := by
  intro x y hx hy
  match x, y, hx, hy with
  | .range _, _, hx, _ => simp [HasShape] at hx
  | .tuple _, _, hx, _ => simp [HasShape] at hx
  | .num _, .range _, _, hy => simp [HasShape] at hy
  | .num _, .tuple _, _, hy => simp [HasShape] at hy
  | .num v, .num w, hx, hy =>
    rw [HasShape] at hx hy
    obtain ⟨c, h1, h2⟩ := h v w hx hy
    exact ⟨c, gives_leaf h1, by rw [Close]; exact h2⟩

private theorem evals_eqS (v w : Val) : Expr.Evals (.expr (.op .isEqualS) [.val v, .val w]) (.bool (v.num = w.num)) :=
  (Expr.call_iff (.op .isEqualS) [v, w] _ (by simp [Expr.Plain]) (by simp [Expr.Takes, Expr.arity]) rfl
    (by simp [Expr.isArg])).mpr (by simp [Expr.meaning, Expr.opMeaning])

private theorem evals_eqEps (v w : Val) (hv : v.ty.arithmetic = true) (hw : w.ty.arithmetic = true) (eps : Rat) :
    Expr.Evals (.expr (Expr.eqEps eps) [.val v, .val w]) (.bool (|v.num - w.num| ≤ eps)) :=
  (Expr.call_iff (Expr.eqEps eps) [v, w] _
    (by simp [Expr.eqEps, Expr.isLessOrEqual, Expr.Plain, Expr.PlainAll])
    (by simp [Expr.eqEps, Expr.isLessOrEqual, Expr.Takes, Expr.TakesAll, Expr.arity, Expr.isOperation,
      Expr.anyOperation, Expr.isArg]) rfl
    (by simp [Expr.isArg, Expr.eqEps])).mpr (Expr.meaning_eqEps v w eps hv hw)

private theorem eqOp_scalar {a b : Ty} (ha : a.arithmetic = true) (hb : b.arithmetic = true) :
    EqOp (.scalar a) (.scalar b) (.leaf (.op .isEqualS)) := by
  refine ⟨trivial, ⟨4, fun n hn => ?_⟩, leaf_tells fun v w _ _ => ⟨_, evals_eqS v w, by simp [Near]⟩, fun _ => trivial,
    fun eps => ⟨4, fun n hn => ?_⟩, fun eps => leaf_tells fun v w hv hw => ⟨_, evals_eqEps v w (by rw [hv]; exact ha)
      (by rw [hw]; exact hb) eps, by simp [Near]⟩⟩
  · obtain ⟨n, rfl⟩ : ∃ m, n = m + 4 := ⟨n - 4, by omega⟩
    rw [resolve_scalar, Cmp.scalarOp, Expr.resolve]
    simp only [Expr.formula, ha, hb, Bool.and_self, if_true]
    rfl
  · obtain ⟨n, rfl⟩ : ∃ m, n = m + 4 := ⟨n - 4, by omega⟩
    rw [resolve_scalar, Cmp.scalarOp, Expr.resolve_isEqual n a b eps ha hb]
    rfl

private theorem apply_cannot (eps : Rat) : ∀ t : CTerm, Stable t → canApply t = false → applyIfCan eps t = t
  | .leaf t, _, h => by
    rw [canApply] at h
    rw [applyIfCan, Expr.applyIfCan.eq_def]
    split
    · simp [Expr.canApply] at h
    · simp [Expr.canApply] at h
    · rfl
  | .comp o inner, _, h => by
    rw [canApply] at h
    simp [applyIfCan, h]

private theorem resolve_comp (n : Nat) (o : Outer) (inner : List CTerm) (shs : List Shape) (eps : Rat) :
    resolve (n + 2) (.comp o inner) shs [eps] = some (applyIfCan eps (.comp o inner)) := by
  have h : ∀ b : Bool, (if b then resolve (n + 1) (applyIfCan eps (.comp o inner)) shs [] else some (.comp o inner)) =
      some (if b then applyIfCan eps (.comp o inner) else .comp o inner) := by
    intro b
    cases b
    · rfl
    · simp only [if_true]
      refine stable_resolve ?_ _ _
      rw [applyIfCan]
      split <;> trivial
  rw [resolve, h, canApply, applyIfCan]
  split <;> rfl

private theorem eqOp_range {a b : Shape} {t : CTerm} (h : EqOp a b t) :
    EqOp (.range a) (.range b) (.comp .eqRange [t]) := by
  have happ : ∀ eps, applyIfCan eps (.comp .eqRange [t]) = .comp .eqRange [applyIfCan eps t] := by
    intro eps
    rw [applyIfCan]
    simp only [canApplyAny, applyAllIfCan, Bool.or_false]
    split
    · rfl
    · rename_i hc
      rw [apply_cannot eps t h.stable (by simpa using hc)]
  refine ⟨trivial, ?_, tells_comp_range h.tells, fun eps => ?_, fun eps => ?_, fun eps => ?_⟩
  · obtain ⟨n₀, hn⟩ := h.resolves
    refine ⟨n₀ + 2, fun n hn' => ?_⟩
    obtain ⟨n, rfl⟩ : ∃ m, n = m + 2 := ⟨n - 2, by omega⟩
    rw [resolve_eqRange, hn _ (by omega)]
    rfl
  · rw [happ]
    trivial
  · obtain ⟨n₀, hn⟩ := h.resolves
    refine ⟨n₀ + 3, fun n hn' => ?_⟩
    obtain ⟨n, rfl⟩ : ∃ m, n = m + 3 := ⟨n - 3, by omega⟩
    rw [resolve_eqRange, hn _ (by omega)]
    exact resolve_comp _ _ _ _ _
  · rw [happ]
    exact tells_comp_range (h.tells' eps)

private theorem EqOps.tells {as bs : List Shape} {ts : List CTerm} (h : EqOps as bs ts) : TellsAll none ts as bs := by
  induction h with
  | nil => exact .nil
  | cons h _ ih => exact .cons h.tells ih

private theorem EqOps.tells' (eps : Rat) {as bs : List Shape} {ts : List CTerm} (h : EqOps as bs ts) :
    TellsAll (some eps) (applyAllIfCan eps ts) as bs := by
  induction h with
  | nil => exact .nil
  | cons h _ ih => exact .cons (h.tells' eps) ih

private theorem EqOps.cannot (eps : Rat) {as bs : List Shape} {ts : List CTerm} (h : EqOps as bs ts) :
    canApplyAny ts = false → applyAllIfCan eps ts = ts := by
  induction h with
  | nil => intro _; rfl
  | cons h _ ih =>
    intro hc
    rw [canApplyAny, Bool.or_eq_false_iff] at hc
    rw [applyAllIfCan, apply_cannot eps _ h.stable hc.1, ih hc.2]

private theorem EqOps.resolves {as bs : List Shape} {ts : List CTerm} (h : EqOps as bs ts) :
    ∃ n₀, ∀ n, n₀ ≤ n → pairwise (fun a b => resolve n (.op .isEqual) [a, b] []) as bs = some ts := by
  induction h with
  | nil => exact ⟨0, fun _ _ => rfl⟩
  | cons h _ ih =>
    obtain ⟨n₁, h1⟩ := h.resolves
    obtain ⟨n₂, h2⟩ := ih
    refine ⟨max n₁ n₂, fun n hn => ?_⟩
    rw [pairwise, h1 n (by omega), Option.bind_some, h2 n (by omega)]
    rfl

private theorem eqOp_tuple {as bs : List Shape} {ts : List CTerm} (h : EqOps as bs ts) (h1 : as.length ≠ 1) :
    EqOp (.tuple as) (.tuple bs) (.comp .eqTuple ts) := by
  have happ : ∀ eps, applyIfCan eps (.comp .eqTuple ts) = .comp .eqTuple (applyAllIfCan eps ts) := by
    intro eps
    rw [applyIfCan]
    split
    · rfl
    · rename_i hc
      rw [h.cannot eps (by simpa using hc)]
  refine ⟨trivial, ?_, tells_comp_tuple h.tells h1, fun eps => ?_, fun eps => ?_, fun eps => ?_⟩
  · obtain ⟨n₀, hn⟩ := h.resolves
    refine ⟨n₀ + 2, fun n hn' => ?_⟩
    obtain ⟨n, rfl⟩ : ∃ m, n = m + 2 := ⟨n - 2, by omega⟩
    rw [resolve_eqTuple, hn _ (by omega)]
    rfl
  · rw [happ]
    trivial
  · obtain ⟨n₀, hn⟩ := h.resolves
    refine ⟨n₀ + 3, fun n hn' => ?_⟩
    obtain ⟨n, rfl⟩ : ∃ m, n = m + 3 := ⟨n - 3, by omega⟩
    rw [resolve_eqTuple, hn _ (by omega)]
    exact resolve_comp _ _ _ _ _
  · rw [happ]
    exact tells_comp_tuple (h.tells' eps) h1

mutual

private theorem eqOp_exists : ∀ S T : Shape, Comparable (· ≠ 1) S T → ∃ t, EqOp S T t
  | .scalar a, .scalar b, h => by
    rw [Comparable] at h
    exact ⟨_, eqOp_scalar h.1 h.2⟩
  | .range a, .range b, h => by
    rw [Comparable] at h
    obtain ⟨t, ht⟩ := eqOp_exists a b h
    exact ⟨_, eqOp_range ht⟩
  | .tuple as, .tuple bs, h => by
    rw [Comparable] at h
    obtain ⟨ts, ht⟩ := eqOps_exists as bs h.2
    exact ⟨_, eqOp_tuple ht h.1⟩
  | .op, _, h => by simp [Comparable] at h
  | .scalar _, .range _, h => by simp [Comparable] at h
  | .scalar _, .tuple _, h => by simp [Comparable] at h
  | .scalar _, .op, h => by simp [Comparable] at h
  | .range _, .scalar _, h => by simp [Comparable] at h
  | .range _, .tuple _, h => by simp [Comparable] at h
  | .range _, .op, h => by simp [Comparable] at h
  | .tuple _, .scalar _, h => by simp [Comparable] at h
  | .tuple _, .range _, h => by simp [Comparable] at h
  | .tuple _, .op, h => by simp [Comparable] at h

private theorem eqOps_exists : ∀ as bs : List Shape, ComparableAll (· ≠ 1) as bs → ∃ ts, EqOps as bs ts
  | [], [], _ => ⟨_, .nil⟩
  | a :: as, b :: bs, h => by
    rw [ComparableAll] at h
    obtain ⟨t, ht⟩ := eqOp_exists a b h.1
    obtain ⟨ts, hts⟩ := eqOps_exists as bs h.2
    exact ⟨_, .cons ht hts⟩
  | [], _ :: _, h => by simp [ComparableAll] at h
  | _ :: _, [], h => by simp [ComparableAll] at h

end

/-! ### Calls -/

private theorem sets_apply {t : CTerm} {S T : Shape} (h : EqOp S T t) (tol : Option Rat) :
    ∃ t', Stable t' ∧ Tells t' S T tol ∧ (∃ n₀, ∀ n, n₀ ≤ n → resolve n (.op .isEqual) [S, T] tol.toList = some t') := by
  cases tol with
  | none => exact ⟨t, h.stable, h.tells, h.resolves⟩
  | some eps => exact ⟨_, h.stable' eps, h.tells' eps, h.policy eps⟩

private theorem gives_call {t t' : CTerm} {ps : List Rat} {x y : Data × Shape} {v : Val}
    (hr : ∃ n₀, ∀ n, n₀ ≤ n → resolve n t [x.2, y.2] ps = some t') (hs : Stable t') (hg : Gives t' x y v) :
    Calls t ps x y v := by
  obtain ⟨n₁, h1⟩ := hr
  obtain ⟨n₂, h2⟩ := hg
  refine ⟨max n₁ n₂ + 1, fun n hn => ?_⟩
  obtain ⟨n, rfl⟩ : ∃ m, n = m + 1 := ⟨n - 1, by omega⟩
  have := h2 (n + 2) (by omega)
  rw [eval_stable hs] at this
  rw [call, h1 _ (by omega), Option.bind_some]
  exact this

private theorem eval_not (b : Bool) : ∃ n₀, ∀ n, n₀ ≤ n →
    eval n (.op .lnot) [(.num (.bool b), .scalar .bool)] = some (.bool !b) := by
  obtain ⟨n₀, h⟩ := (Expr.call_iff (.op .lnotS) [.bool b] (.bool !b) (by simp [Expr.Plain])
    (by simp [Expr.Takes, Expr.arity]) rfl (by simp [Expr.isArg])).mpr (by simp [Expr.meaning, Expr.opMeaning])
  refine ⟨n₀ + 4, fun n hn => ?_⟩
  obtain ⟨n, rfl⟩ : ∃ m, n = m + 4 := ⟨n - 4, by omega⟩
  have hr : resolve (n + 3) (.op .lnot) [.scalar .bool] [] = some (.leaf (.op .lnotS)) := rfl
  rw [eval]
  simp only [List.map_cons, List.map_nil, hr, Option.bind_some]
  rw [run]
  simpa [numbers] using h (n + 3) (by omega)

private theorem calls_not {o : Cmp} {t' : CTerm} {ps : List Rat} {x y : Data × Shape} {b : Bool}
    (hr : ∃ n₀, ∀ n, n₀ ≤ n → resolve n (.op o) [x.2, y.2] ps = some t') (hne : ∀ i, t' ≠ .arg i) (hnz : t' ≠ .zero)
    (hg : Gives t' x y (.bool b)) : Calls (.expr (.op .lnot) [.op o]) ps x y (.bool !b) := by
  obtain ⟨n₁, h1⟩ := hr
  obtain ⟨n₂, h2⟩ := hg
  obtain ⟨n₃, h3⟩ := eval_not b
  refine ⟨n₁ + n₂ + n₃ + 2, fun n hn => ?_⟩
  obtain ⟨n, rfl⟩ : ∃ m, n = m + 2 := ⟨n - 2, by omega⟩
  have hl : resolve (n + 1) (.op .lnot) [.op] ps = some (.op .lnot) := rfl
  have hp : passTo [x, y] (fun t => eval (n + 1) t [x, y]) t' = some (.num (.bool b), .scalar .bool) := by
    cases t' with
    | arg i => exact absurd rfl (hne i)
    | zero => exact absurd rfl hnz
    | _ => simp only [passTo, h2 (n + 1) (by omega), Option.map_some]; rfl
  rw [call, resolve]
  simp only [hasZero, List.map_cons, List.map_nil, Expr.sequence, h1 (n + 1) (by omega), Option.bind_some,
    Option.map_some, hl, if_neg Bool.false_ne_true]
  rw [run]
  simp only [List.map_cons, List.map_nil, Expr.sequence, hp, Option.bind_some, Option.map_some]
  exact h3 (n + 1) (by omega)

private theorem Stable.ne {t : CTerm} (h : Stable t) : (∀ i, t ≠ .arg i) ∧ t ≠ .zero :=
  ⟨by rintro i rfl; exact h, by rintro rfl; exact h⟩

/-- `is_equal` and `is_not_equal`, possibly with `absolute_error`, of ranges, tuples and any nesting of them: whether
the structure is the same and the numbers are equal, or within the tolerance. -/
theorem equal_close (S T : Shape) (x y : Data) (tol : Option Rat) (hc : Comparable (· ≠ 1) S T) (hx : HasShape x S)
    (hy : HasShape y T) :
    ∃ b, (b = true ↔ Close tol x y) ∧ Calls (.op .isEqual) tol.toList (x, S) (y, T) (.bool b) ∧
      Calls isNotEqual tol.toList (x, S) (y, T) (.bool !b) := by
  obtain ⟨t, ht⟩ := eqOp_exists S T hc
  obtain ⟨t', h1, h2, h3⟩ := sets_apply ht tol
  obtain ⟨b, h4, h5⟩ := h2 x y hx hy
  exact ⟨b, h5, gives_call h3 h1 h4, calls_not h3 h1.ne.1 h1.ne.2 h4⟩

/-! ### Order -/

private theorem resolve_lexRange (n : Nat) (a b : Shape) (ps : List Rat) :
    resolve (n + 1) (.op .cmp3) [.range a, .range b] ps =
      (resolve n (.op .cmp3) [a, b] []).bind fun i => resolve n (.comp .lexRange [i]) [.range a, .range b] ps := rfl

private theorem resolve_lexTuple (n : Nat) (as bs : List Shape) (ps : List Rat) :
    resolve (n + 1) (.op .cmp3) [.tuple as, .tuple bs] ps =
      (pairwise (fun a b => resolve n (.op .cmp3) [a, b] []) as bs).bind fun is =>
        resolve n (.comp .lexTuple is) [.tuple as, .tuple bs] ps := rfl

/-- The operation compares the arguments. -/
private def Orders (t : CTerm) (S T : Shape) : Prop :=
  ∀ x y, HasShape x S → HasShape y T → Gives t (x, S) (y, T) (.int (order 1 x y))

/-- What `compare3way` is resolved to without policies. -/
private structure OrdOp (S T : Shape) (t : CTerm) : Prop where
  stable : Stable t
  resolves : ∃ n₀, ∀ n, n₀ ≤ n → resolve n (.op .cmp3) [S, T] [] = some t
  orders : Orders t S T
  done : canApply t = false

private inductive OrdOps : List Shape → List Shape → List CTerm → Prop
  | nil : OrdOps [] [] []
  | cons {a as b bs t ts} : OrdOp a b t → OrdOps as bs ts → OrdOps (a :: as) (b :: bs) (t :: ts)

private theorem lexRange_orders {t : CTerm} {S T : Shape} (h : Orders t S T) :
    ∀ xs ys, HasShapeAll xs S → HasShapeAll ys T →
      ∃ n₀, ∀ n, n₀ ≤ n → lexRange (fun x y => eval n t [(x, S), (y, T)]) xs ys = some (.int (orderAll 1 xs ys))
  | [], [], _, _ => ⟨0, fun _ _ => rfl⟩
  | [], _ :: _, _, _ => ⟨0, fun _ _ => rfl⟩
  | _ :: _, [], _, _ => ⟨0, fun _ _ => rfl⟩
  | x :: xs, y :: ys, hx, hy => by
    rw [HasShapeAll] at hx hy
    obtain ⟨n₁, h1⟩ := h x y hx.1 hy.1
    obtain ⟨n₂, h2⟩ := lexRange_orders h xs ys hx.2 hy.2
    refine ⟨max n₁ n₂, fun n hn => ?_⟩
    rw [lexRange, h1 n (by omega), Option.bind_some, Expr.Val.toInt?, Option.bind_some, h2 n (by omega), orderAll]
    by_cases h3 : order 1 x y = 0
    · rw [if_neg (not_not.mpr h3), if_pos h3]
    · rw [if_pos h3, if_neg h3]

private theorem orderAll_cons (p : Int) (x y : Data) (xs ys : List Data) :
    orderAll p (x :: xs) (y :: ys) = if order p x y = 0 then orderAll p xs ys else order p x y := by
  rw [orderAll]

private theorem lexTuple_orders {ts : List CTerm} {as bs : List Shape} (h : OrdOps as bs ts) :
    ∀ xs ys, HaveShapes xs as → HaveShapes ys bs → as ≠ [] →
      ∃ n₀, ∀ n, n₀ ≤ n →
        lexTuple (zipCalls (fun t x y => eval n t [x, y]) ts xs as ys bs) = some (.int (orderAll 1 xs ys)) := by
  induction h with
  | nil => intro _ _ _ _ h; exact absurd rfl h
  | @cons a as b bs t ts ht hts ih =>
    intro xs ys hx hy _
    match xs, ys, hx, hy with
    | [], _, hx, _ => simp [HaveShapes] at hx
    | _ :: _, [], _, hy => simp [HaveShapes] at hy
    | x :: xs, y :: ys, hx, hy =>
      rw [HaveShapes] at hx hy
      obtain ⟨n₁, h1⟩ := ht.orders x y hx.1 hy.1
      cases hts with
      | nil =>
        match xs, ys, hx.2, hy.2 with
        | _ :: _, _, hx, _ => simp [HaveShapes] at hx
        | [], _ :: _, _, hy => simp [HaveShapes] at hy
        | [], [], _, _ =>
          refine ⟨n₁, fun n hn => ?_⟩
          rw [zipCalls, zipCalls, lexTuple, h1 n hn, Option.bind_some, Expr.Val.toInt?, Option.map_some, orderAll,
            orderAll]
          · split_ifs with h3
            · rw [h3]
            · rfl
          · simp
      | cons ht' hts' =>
        obtain ⟨n₂, h2⟩ := ih xs ys hx.2 hy.2 (by simp)
        match xs, ys, hx.2, hy.2 with
        | [], _, hx, _ => simp [HaveShapes] at hx
        | _ :: _, [], _, hy => simp [HaveShapes] at hy
        | x' :: xs, y' :: ys, _, _ =>
          refine ⟨max n₁ n₂, fun n hn => ?_⟩
          have := h2 n (by omega)
          rw [zipCalls] at this ⊢
          rw [zipCalls, lexTuple, h1 n (by omega), Option.bind_some, Expr.Val.toInt?, Option.bind_some, this,
            Option.map_some, orderAll_cons 1 x y]
          · split_ifs <;> rfl
          · simp

private theorem evals_cmp3 (v w : Val) (S T : Shape) :
    Gives (.leaf (.expr (.op .sub) [.expr (.op .asInt) [.expr (.op .isLessS) [Expr.r_, Expr.l_]],
      .expr (.op .asInt) [.op .isLessS]])) (.num v, S) (.num w, T) (.int (order 1 (.num v) (.num w))) := by
  refine gives_leaf ((Expr.call_iff _ [v, w] _ ?_ ?_ rfl ?_).mpr ?_)
  · simp [Expr.Plain, Expr.PlainAll, Expr.r_, Expr.l_]
  · simp [Expr.Takes, Expr.TakesAll, Expr.arity, Expr.isOperation, Expr.anyOperation, Expr.isArg, Expr.r_, Expr.l_]
  · simp [Expr.isArg]
  · have i1 : ∀ p : Prop, [Decidable p] → Expr.trunc (Val.num (.bool (decide p))) = if p then 1 else 0 := by
      intro p _
      have := Expr.trunc_int 1
      simp only [Int.cast_one] at this
      by_cases hp : p <;> simp [hp, Val.num, this]
      simp [Expr.trunc]
    have i2 : ∀ x y : Int, Expr.result (.int x) (.int y) ((x : Rat) - y) = some (.int (x - y)) := by
      intro x y
      simp only [Expr.result, Expr.Val.ty, Expr.Ty.integral, Bool.and_self, if_true]
      rw [← Int.cast_sub, Expr.trunc_int]
    simp only [Expr.meaning, Expr.meaningAll, Expr.apply, Expr.sequence, Option.bind_some, Option.map_some,
      Expr.opMeaning, Expr.r_, Expr.l_, List.length_cons, List.length_nil, if_true, List.getElem?_cons_succ,
      List.getElem?_cons_zero, i1, Expr.num_int, i2, order]
    rcases lt_trichotomy v.num w.num with h | h | h
    · simp [h, not_lt.mpr h.le]
    · simp [h]
    · simp [h, not_lt.mpr h.le, h.ne']

private theorem ordOp_scalar (a b : Ty) :
    OrdOp (.scalar a) (.scalar b) (.leaf (.expr (.op .sub)
      [.expr (.op .asInt) [.expr (.op .isLessS) [Expr.r_, Expr.l_]], .expr (.op .asInt) [.op .isLessS]])) := by
  refine ⟨trivial, ⟨12, fun n hn => ?_⟩, fun x y hx hy => ?_, rfl⟩
  · obtain ⟨n, rfl⟩ : ∃ m, n = m + 12 := ⟨n - 12, by omega⟩
    rw [resolve_scalar]
    rfl
  · match x, y, hx, hy with
    | .range _, _, hx, _ => simp [HasShape] at hx
    | .tuple _, _, hx, _ => simp [HasShape] at hx
    | .num _, .range _, _, hy => simp [HasShape] at hy
    | .num _, .tuple _, _, hy => simp [HasShape] at hy
    | .num v, .num w, _, _ => exact evals_cmp3 v w _ _

private theorem ordOp_range {a b : Shape} {t : CTerm} (h : OrdOp a b t) :
    OrdOp (.range a) (.range b) (.comp .lexRange [t]) := by
  refine ⟨trivial, ?_, fun x y hx hy => ?_, by simp [canApply, canApplyAny, h.done]⟩
  · obtain ⟨n₀, hn⟩ := h.resolves
    refine ⟨n₀ + 2, fun n hn' => ?_⟩
    obtain ⟨n, rfl⟩ : ∃ m, n = m + 2 := ⟨n - 2, by omega⟩
    rw [resolve_lexRange, hn _ (by omega)]
    rfl
  · match x, y, hx, hy with
    | .num _, _, hx, _ => simp [HasShape] at hx
    | .tuple _, _, hx, _ => simp [HasShape] at hx
    | .range _, .num _, _, hy => simp [HasShape] at hy
    | .range _, .tuple _, _, hy => simp [HasShape] at hy
    | .range xs, .range ys, hx, hy =>
      rw [HasShape] at hx hy
      rw [order]
      exact gives_comp (lexRange_orders h.orders xs ys hx hy)

private theorem OrdOps.length {as bs : List Shape} {ts : List CTerm} (h : OrdOps as bs ts) :
    ts.length = as.length := by
  induction h with
  | nil => rfl
  | cons _ _ ih => simp [ih]

private theorem OrdOps.done {as bs : List Shape} {ts : List CTerm} (h : OrdOps as bs ts) : canApplyAny ts = false := by
  induction h with
  | nil => rfl
  | cons h _ ih => simp [canApplyAny, h.done, ih]

private theorem OrdOps.resolves {as bs : List Shape} {ts : List CTerm} (h : OrdOps as bs ts) :
    ∃ n₀, ∀ n, n₀ ≤ n → pairwise (fun a b => resolve n (.op .cmp3) [a, b] []) as bs = some ts := by
  induction h with
  | nil => exact ⟨0, fun _ _ => rfl⟩
  | cons h _ ih =>
    obtain ⟨n₁, h1⟩ := h.resolves
    obtain ⟨n₂, h2⟩ := ih
    refine ⟨max n₁ n₂, fun n hn => ?_⟩
    rw [pairwise, h1 n (by omega), Option.bind_some, h2 n (by omega)]
    rfl

private theorem ordOp_tuple {as bs : List Shape} {ts : List CTerm} (h : OrdOps as bs ts) (h1 : 2 ≤ as.length) :
    OrdOp (.tuple as) (.tuple bs) (.comp .lexTuple ts) := by
  refine ⟨trivial, ?_, fun x y hx hy => ?_, by simp [canApply, h.done]⟩
  · obtain ⟨n₀, hn⟩ := h.resolves
    refine ⟨n₀ + 2, fun n hn' => ?_⟩
    obtain ⟨n, rfl⟩ : ∃ m, n = m + 2 := ⟨n - 2, by omega⟩
    rw [resolve_lexTuple, hn _ (by omega)]
    rfl
  · match x, y, hx, hy with
    | .num _, _, hx, _ => simp [HasShape] at hx
    | .range _, _, hx, _ => simp [HasShape] at hx
    | .tuple _, .num _, _, hy => simp [HasShape] at hy
    | .tuple _, .range _, _, hy => simp [HasShape] at hy
    | .tuple xs, .tuple ys, hx, hy =>
      rw [HasShape] at hx hy
      rw [order]
      obtain ⟨n₀, h2⟩ := lexTuple_orders h xs ys hx hy (by rintro rfl; simp at h1)
      refine gives_comp ⟨n₀, fun n hn => ?_⟩
      rw [composite, if_neg (by rw [h.length]; omega)]
      exact h2 n hn

mutual

private theorem ordOp_exists : ∀ S T : Shape, Comparable (2 ≤ ·) S T → ∃ t, OrdOp S T t
  | .scalar a, .scalar b, _ => ⟨_, ordOp_scalar a b⟩
  | .range a, .range b, h => by
    rw [Comparable] at h
    obtain ⟨t, ht⟩ := ordOp_exists a b h
    exact ⟨_, ordOp_range ht⟩
  | .tuple as, .tuple bs, h => by
    rw [Comparable] at h
    obtain ⟨ts, ht⟩ := ordOps_exists as bs h.2
    exact ⟨_, ordOp_tuple ht h.1⟩
  | .op, _, h => by simp [Comparable] at h
  | .scalar _, .range _, h => by simp [Comparable] at h
  | .scalar _, .tuple _, h => by simp [Comparable] at h
  | .scalar _, .op, h => by simp [Comparable] at h
  | .range _, .scalar _, h => by simp [Comparable] at h
  | .range _, .tuple _, h => by simp [Comparable] at h
  | .range _, .op, h => by simp [Comparable] at h
  | .tuple _, .scalar _, h => by simp [Comparable] at h
  | .tuple _, .range _, h => by simp [Comparable] at h
  | .tuple _, .op, h => by simp [Comparable] at h

private theorem ordOps_exists : ∀ as bs : List Shape, ComparableAll (2 ≤ ·) as bs → ∃ ts, OrdOps as bs ts
  | [], [], _ => ⟨_, .nil⟩
  | a :: as, b :: bs, h => by
    rw [ComparableAll] at h
    obtain ⟨t, ht⟩ := ordOp_exists a b h.1
    obtain ⟨ts, hts⟩ := ordOps_exists as bs h.2
    exact ⟨_, .cons ht hts⟩
  | [], _ :: _, h => by simp [ComparableAll] at h
  | _ :: _, [], h => by simp [ComparableAll] at h

end

private theorem Sequences.cmp3 {S T : Shape} {t : CTerm} (hs : Sequences S T) (h : OrdOp S T t) (ps : List Rat) :
    ∃ n₀, ∀ n, n₀ ≤ n → resolve n (.op .cmp3) [S, T] ps = some t := by
  obtain ⟨n₀, hn⟩ := h.resolves
  refine ⟨n₀ + 2, fun n hn' => ?_⟩
  obtain ⟨n, rfl⟩ : ∃ m, n = m + 2 := ⟨n - 2, by omega⟩
  have h1 := hn (n + 2) (by omega)
  have hd := h.done
  have key : ∀ (o : Outer) (is : List CTerm) (shs : List Shape), canApply (.comp o is) = false →
      resolve (n + 1) (.comp o is) shs ps = some (.comp o is) := by
    intro o is shs hc
    cases ps with
    | nil => rfl
    | cons p ps => rw [resolve, hc]; rfl
  match S, T, hs with
  | .range a, .range b, _ =>
    rw [resolve_lexRange] at h1 ⊢
    cases hr : resolve (n + 1) (.op .cmp3) [a, b] [] with
    | none => rw [hr] at h1; cases h1
    | some i =>
      rw [hr, Option.bind_some] at h1
      rw [Option.bind_some]
      have h2 : CTerm.comp .lexRange [i] = t := Option.some.inj h1
      rw [← h2] at hd ⊢
      exact key _ _ _ hd
  | .tuple as, .tuple bs, _ =>
    rw [resolve_lexTuple] at h1 ⊢
    cases hr : pairwise (fun a b => resolve (n + 1) (.op .cmp3) [a, b] []) as bs with
    | none => rw [hr] at h1; cases h1
    | some is =>
      rw [hr, Option.bind_some] at h1
      rw [Option.bind_some]
      have h2 : CTerm.comp .lexTuple is = t := Option.some.inj h1
      rw [← h2] at hd ⊢
      exact key _ _ _ hd

private theorem eval_ltZero (i : Int) : ∃ n₀, ∀ n, n₀ ≤ n →
    eval n (.op .isLess) [(.num (.int i), .scalar .int), (.num (.const 0), .scalar .const)] = some (.bool (i < 0)) := by
  obtain ⟨n₀, h⟩ := (Expr.call_iff (.op .isLessS) [.int i, .const 0] (.bool (i < 0)) (by simp [Expr.Plain])
    (by simp [Expr.Takes, Expr.arity]) rfl (by simp [Expr.isArg])).mpr
    (by simp [Expr.meaning, Expr.opMeaning, Expr.Val.num])
  refine ⟨n₀ + 4, fun n hn => ?_⟩
  obtain ⟨n, rfl⟩ : ∃ m, n = m + 4 := ⟨n - 4, by omega⟩
  have hr : resolve (n + 3) (.op .isLess) [.scalar .int, .scalar .const] [] = some (.leaf (.op .isLessS)) := rfl
  rw [eval]
  simp only [List.map_cons, List.map_nil, hr, Option.bind_some]
  rw [run]
  simpa [numbers] using h (n + 3) (by omega)

private theorem resolve_lt {S T : Shape} (hs : Sequences S T) (n : Nat) (ps : List Rat) :
    resolve (n + 2) (.op .isLess) [S, T] ps = some (.expr (.op .isLess) [.op .cmp3, .zero]) := by
  match S, T, hs with
  | .range _, .range _, _ => rfl
  | .tuple _, .tuple _, _ => rfl

private theorem run_lt {x y : Data × Shape} {i : Int} (h : Gives (.op .cmp3) x y (.int i)) :
    ∃ n₀, ∀ n, n₀ ≤ n → run n (.expr (.op .isLess) [.op .cmp3, .zero]) [x, y] = some (.bool (i < 0)) := by
  obtain ⟨n₁, h1⟩ := h
  obtain ⟨n₂, h2⟩ := eval_ltZero i
  refine ⟨n₁ + n₂ + 1, fun n hn => ?_⟩
  obtain ⟨n, rfl⟩ : ∃ m, n = m + 1 := ⟨n - 1, by omega⟩
  rw [run]
  simp only [List.map_cons, List.map_nil, Expr.sequence, passTo, h1 n (by omega), Option.bind_some, Option.map_some]
  exact h2 n (by omega)

private theorem gives_cmp3 {S T : Shape} {t : CTerm} {x y : Data} (h : OrdOp S T t) (hx : HasShape x S)
    (hy : HasShape y T) : Gives (.op .cmp3) (x, S) (y, T) (.int (order 1 x y)) := by
  obtain ⟨n₁, h1⟩ := h.resolves
  obtain ⟨n₂, h2⟩ := h.orders x y hx hy
  refine ⟨n₁ + n₂ + 2, fun n hn => ?_⟩
  obtain ⟨n, rfl⟩ : ∃ m, n = m + 2 := ⟨n - 2, by omega⟩
  have := h2 (n + 2) (by omega)
  rw [eval_stable h.stable] at this
  rw [eval]
  simp only [List.map_cons, List.map_nil, h1 (n + 1) (by omega), Option.bind_some]
  exact this

private theorem gives_lt {x y : Data × Shape} {i : Int} (h : Gives (.op .cmp3) x y (.int i)) :
    Gives (.expr (.op .isLess) [.op .cmp3, .zero]) x y (.bool (i < 0)) := by
  obtain ⟨n₀, h⟩ := run_lt h
  refine ⟨n₀ + 2, fun n hn => ?_⟩
  obtain ⟨n, rfl⟩ : ∃ m, n = m + 2 := ⟨n - 2, by omega⟩
  have hr : ∀ shs, resolve (n + 1) (.expr (.op .isLess) [.op .cmp3, .zero]) shs [] =
      some (.expr (.op .isLess) [.op .cmp3, .zero]) := fun _ => rfl
  rw [eval, hr, Option.bind_some]
  exact h (n + 1) (by omega)

/-- `compare3way`, `is_less` and `is_greater_or_equal` of two ranges or two tuples compare the numbers exactly, in the
order in which a proper prefix comes last; whatever tolerance is given is ignored. -/
theorem order_exact (S T : Shape) (x y : Data) (ps : List Rat) (hs : Sequences S T) (hc : Comparable (2 ≤ ·) S T)
    (hx : HasShape x S) (hy : HasShape y T) :
    Calls (.op .cmp3) ps (x, S) (y, T) (.int (order 1 x y)) ∧
    Calls (.op .isLess) ps (x, S) (y, T) (.bool (order 1 x y < 0)) ∧
    Calls isGreaterOrEqual ps (x, S) (y, T) (.bool (0 ≤ order 1 x y)) := by
  obtain ⟨t, ht⟩ := ordOp_exists S T hc
  have hg := gives_cmp3 ht hx hy
  refine ⟨gives_call (hs.cmp3 ht ps) ht.stable (ht.orders x y hx hy), ?_, ?_⟩
  · obtain ⟨n₀, h⟩ := run_lt hg
    refine ⟨n₀ + 2, fun n hn => ?_⟩
    obtain ⟨n, rfl⟩ : ∃ m, n = m + 2 := ⟨n - 2, by omega⟩
    rw [call, resolve_lt hs, Option.bind_some]
    exact h _ (by omega)
  · have := calls_not (o := .isLess) (ps := ps) (x := (x, S)) (y := (y, T)) ⟨2, fun n hn => by
        obtain ⟨n, rfl⟩ : ∃ m, n = m + 2 := ⟨n - 2, by omega⟩
        exact resolve_lt hs n ps⟩ (fun _ => by simp) (by simp) (gives_lt hg)
    have e : (!decide (order 1 x y < 0)) = decide (0 ≤ order 1 x y) := by
      by_cases h : order 1 x y < 0 <;> simp [h] <;> omega
    rw [e] at this
    exact this

/-! ### The own order of containers -/

mutual

private theorem own_order : ∀ x y : Data, order (-1) x y = match ownOrder x y with | .lt => -1 | .eq => 0 | .gt => 1
  | .num a, .num b => by
    rw [order, ownOrder]
    split_ifs <;> rfl
  | .range xs, .range ys => by
    rw [order, ownOrder]
    exact own_orderAll xs ys
  | .tuple xs, .tuple ys => by
    rw [order, ownOrder]
    exact own_orderAll xs ys
  | .num _, .range _ => by simp [order, ownOrder]
  | .num _, .tuple _ => by simp [order, ownOrder]
  | .range _, .num _ => by simp [order, ownOrder]
  | .range _, .tuple _ => by simp [order, ownOrder]
  | .tuple _, .num _ => by simp [order, ownOrder]
  | .tuple _, .range _ => by simp [order, ownOrder]

private theorem own_orderAll : ∀ xs ys : List Data,
    orderAll (-1) xs ys = match ownOrderAll xs ys with | .lt => -1 | .eq => 0 | .gt => 1
  | [], [] => by simp [orderAll, ownOrderAll]
  | [], _ :: _ => by simp [orderAll, ownOrderAll]
  | _ :: _, [] => by simp [orderAll, ownOrderAll]
  | x :: xs, y :: ys => by
    have h1 := own_order x y
    have h2 := own_orderAll xs ys
    rw [orderAll, ownOrderAll, h1, h2]
    cases ownOrder x y <;> rfl

end

mutual

/-- The arguments swapped. -/
theorem order_swap (p : Int) : ∀ x y : Data, order p y x = -order p x y
  | .num a, .num b => by
    rw [order, order]
    rcases lt_trichotomy a.num b.num with h | h | h
    · simp [h, not_lt.mpr h.le, h.ne']
    · simp [h]
    · simp [h, not_lt.mpr h.le, h.ne']
  | .range xs, .range ys => by
    rw [order, order]
    exact orderAll_swap p xs ys
  | .tuple xs, .tuple ys => by
    rw [order, order]
    exact orderAll_swap p xs ys
  | .num _, .range _ => by simp [order]
  | .num _, .tuple _ => by simp [order]
  | .range _, .num _ => by simp [order]
  | .range _, .tuple _ => by simp [order]
  | .tuple _, .num _ => by simp [order]
  | .tuple _, .range _ => by simp [order]

@[inherit_doc order_swap] theorem orderAll_swap (p : Int) : ∀ xs ys : List Data, orderAll p ys xs = -orderAll p xs ys
  | [], [] => by simp [orderAll]
  | [], _ :: _ => by simp [orderAll]
  | _ :: _, [] => by simp [orderAll]
  | x :: xs, y :: ys => by
    rw [orderAll, orderAll, order_swap p x y, orderAll_swap p xs ys]
    by_cases h : order p x y = 0
    · rw [if_pos h, if_pos (by omega)]
    · rw [if_neg h, if_neg (by omega)]

end

private theorem resolve_gt {S T : Shape} (hs : Sequences S T) (n : Nat) (ps : List Rat) :
    resolve (n + 4) (.op .isGreater) [S, T] ps =
      if ps = [] then some (.expr .isLessS [.arg 1, .arg 0]) else none := by
  have key : ∀ shs, resolve (n + 3) (.expr (.op .isLess) [.arg 1, .arg 0]) shs ps =
      if ps = [] then some (.expr .isLessS [.arg 1, .arg 0]) else none := by
    intro shs
    have h : resolve (n + 2) (.op .isLess) [.op, .op] ps = if ps = [] then some .isLessS else none := rfl
    have h0 : resolve (n + 2) (.arg 0) shs ps = some (.arg 0) := rfl
    have h1 : resolve (n + 2) (.arg 1) shs ps = some (.arg 1) := rfl
    rw [resolve]
    simp only [hasZero, List.map_cons, List.map_nil, Expr.sequence, h0, h1, Option.bind_some, Option.map_some, h,
      if_neg Bool.false_ne_true]
    split_ifs <;> rfl
  match S, T, hs with
  | .range _, .range _, _ => exact key _
  | .tuple _, .tuple _, _ => exact key _

private theorem run_gt (n : Nat) (x y : Data × Shape) :
    run (n + 3) (.expr .isLessS [.arg 1, .arg 0]) [x, y] = some (.bool (0 < order (-1) x.1 y.1)) := by
  have h : ∀ args, eval (n + 2) .isLessS args = callLess args := by
    intro args
    rw [eval, resolve, if_pos rfl, Option.bind_some]
    cases n <;> rw [run]
  rw [run]
  simp only [List.map_cons, List.map_nil, Expr.sequence, passTo, List.getElem?_cons_succ, List.getElem?_cons_zero,
    Option.bind_some, Option.map_some, h, callLess]
  have h1 := own_order y.1 x.1
  rw [order_swap] at h1
  congr 2
  cases ho : ownOrder y.1 x.1 <;> rw [ho] at h1 <;> simp only at h1
  · have : 0 < order (-1) x.1 y.1 := by omega
    simp [this]
  · have : ¬ 0 < order (-1) x.1 y.1 := by omega
    simp [this]
  · have : ¬ 0 < order (-1) x.1 y.1 := by omega
    simp [this]

/-- `is_greater` and `is_less_or_equal` of two ranges or two tuples compare them with their own `<`, in the order of a
dictionary: a proper prefix comes first. -/
theorem greater_dictionary (S T : Shape) (x y : Data) (hs : Sequences S T) :
    Calls (.op .isGreater) [] (x, S) (y, T) (.bool (0 < order (-1) x y)) ∧
    Calls isLessOrEqual [] (x, S) (y, T) (.bool (order (-1) x y ≤ 0)) := by
  have hr : ∃ n₀, ∀ n, n₀ ≤ n → resolve n (.op .isGreater) [S, T] [] = some (.expr .isLessS [.arg 1, .arg 0]) :=
    ⟨4, fun n hn => by
      obtain ⟨n, rfl⟩ : ∃ m, n = m + 4 := ⟨n - 4, by omega⟩
      rw [resolve_gt hs, if_pos rfl]⟩
  constructor
  · refine ⟨4, fun n hn => ?_⟩
    obtain ⟨n, rfl⟩ : ∃ m, n = m + 4 := ⟨n - 4, by omega⟩
    rw [call, resolve_gt hs, if_pos rfl, Option.bind_some]
    exact run_gt (n + 1) (x, S) (y, T)
  · have hg : Gives (.expr .isLessS [.arg 1, .arg 0]) (x, S) (y, T) (.bool (0 < order (-1) x y)) := by
      refine ⟨5, fun n hn => ?_⟩
      obtain ⟨n, rfl⟩ : ∃ m, n = m + 5 := ⟨n - 5, by omega⟩
      have : ∀ shs, resolve (n + 4) (.expr .isLessS [.arg 1, .arg 0]) shs [] = some (.expr .isLessS [.arg 1, .arg 0]) :=
        fun _ => rfl
      rw [eval, this, Option.bind_some]
      exact run_gt (n + 1) (x, S) (y, T)
    have := calls_not hr (fun _ => by simp) (by simp) hg
    have e : (!decide (0 < order (-1) x y)) = decide (order (-1) x y ≤ 0) := by
      by_cases h : 0 < order (-1) x y <;> simp [h] <;> omega
    rw [e] at this
    exact this

/-! ### What does not compile -/

private theorem resolve_gt_none {S T : Shape} (hs : Sequences S T) (ps : List Rat) (hp : ps ≠ []) :
    ∀ n, resolve n (.op .isGreater) [S, T] ps = none := by
  intro n
  match n with
  | 0 => rfl
  | 1 => match S, T, hs with
    | .range _, .range _, _ => rfl
    | .tuple _, .tuple _, _ => rfl
  | 2 => match S, T, hs with
    | .range _, .range _, _ => rfl
    | .tuple _, .tuple _, _ => rfl
  | 3 => match S, T, hs with
    | .range _, .range _, _ => rfl
    | .tuple _, .tuple _, _ => rfl
  | n + 4 => rw [resolve_gt hs, if_neg hp]

/-- `is_greater` and `is_less_or_equal` of two ranges or two tuples do not compile with a tolerance. -/
theorem greater_tolerance_fails (S T : Shape) (x y : Data) (ps : List Rat) (hs : Sequences S T) (hp : ps ≠ []) (n : Nat) :
    call n (.op .isGreater) ps (x, S) (y, T) = none ∧ call n isLessOrEqual ps (x, S) (y, T) = none := by
  constructor
  · rw [call, resolve_gt_none hs ps hp]
    rfl
  · cases n with
    | zero => rfl
    | succ n =>
      rw [call, isLessOrEqual, resolve]
      simp only [hasZero, List.map_cons, List.map_nil, Expr.sequence, resolve_gt_none hs ps hp, Option.bind_none,
        if_neg Bool.false_ne_true]

private theorem applyAll_length (eps : Rat) : ∀ ts : List CTerm, (applyAllIfCan eps ts).length = ts.length
  | [] => by rw [applyAllIfCan]
  | t :: ts => by rw [applyAllIfCan, List.length_cons, List.length_cons, applyAll_length eps ts]

private theorem resolve_comp_length (o : Outer) (shs : List Shape) : ∀ (n : Nat) (inner : List CTerm) (ps : List Rat)
    (t : CTerm), resolve n (.comp o inner) shs ps = some t → ∃ is, t = .comp o is ∧ is.length = inner.length
  | 0, _, _, _, h => by cases h
  | n + 1, inner, [], t, h => ⟨inner, (Option.some.inj h).symm, rfl⟩
  | n + 1, inner, p :: ps, t, h => by
    rw [resolve] at h
    split_ifs at h with hc
    · rw [applyIfCan] at h
      split_ifs at h
      · obtain ⟨is, h1, h2⟩ := resolve_comp_length o shs n _ ps t h
        exact ⟨is, h1, by rw [h2, applyAll_length]⟩
      · exact resolve_comp_length o shs n _ ps t h
    · exact ⟨inner, (Option.some.inj h).symm, rfl⟩

private theorem pairwise_length (f : Shape → Shape → Option CTerm) : ∀ (as bs : List Shape) (ts : List CTerm),
    pairwise f as bs = some ts → ts.length = as.length
  | [], [], _, h => by
    rw [pairwise] at h
    cases h
    rfl
  | a :: as, b :: bs, ts, h => by
    rw [pairwise, Option.bind_eq_some_iff] at h
    obtain ⟨t, _, h⟩ := h
    rw [Option.map_eq_some_iff] at h
    obtain ⟨us, h1, rfl⟩ := h
    simp [pairwise_length f as bs us h1]
  | [], _ :: _, _, h => by simp [pairwise] at h
  | _ :: _, [], _, h => by simp [pairwise] at h

private theorem eqTuple_length {n : Nat} {as bs : List Shape} {ps : List Rat} {t : CTerm}
    (h : resolve n (.op .isEqual) [.tuple as, .tuple bs] ps = some t) :
    ∃ is, t = .comp .eqTuple is ∧ is.length = as.length := by
  cases n with
  | zero => cases h
  | succ n =>
    rw [resolve_eqTuple, Option.bind_eq_some_iff] at h
    obtain ⟨is, h1, h2⟩ := h
    obtain ⟨js, h3, h4⟩ := resolve_comp_length _ _ _ _ _ _ h2
    exact ⟨js, h3, by rw [h4, pairwise_length _ _ _ _ h1]⟩

private theorem lexTuple_length {n : Nat} {as bs : List Shape} {ps : List Rat} {t : CTerm}
    (h : resolve n (.op .cmp3) [.tuple as, .tuple bs] ps = some t) :
    ∃ is, t = .comp .lexTuple is ∧ is.length = as.length := by
  cases n with
  | zero => cases h
  | succ n =>
    rw [resolve_lexTuple, Option.bind_eq_some_iff] at h
    obtain ⟨is, h1, h2⟩ := h
    obtain ⟨js, h3, h4⟩ := resolve_comp_length _ _ _ _ _ _ h2
    exact ⟨js, h3, by rw [h4, pairwise_length _ _ _ _ h1]⟩

private theorem run_comp_none {o : Outer} {is : List CTerm} {x y : Data × Shape}
    (h : ∀ f, composite f o is x y = none) : ∀ n, run n (.comp o is) [x, y] = none
  | 0 => by rw [run] <;> simp
  | n + 1 => by rw [run]; exact h _

private theorem eval_comp_none {o : Outer} {is : List CTerm} {x y : Data × Shape}
    (h : ∀ f, composite f o is x y = none) : ∀ n, eval n (.comp o is) [x, y] = none
  | 0 => by rw [eval]
  | 1 => rfl
  | n + 2 => by rw [eval_stable (by trivial)]; exact run_comp_none h _

private theorem run_not_none {t : CTerm} {x y : Data × Shape} (hne : ∀ i, t ≠ .arg i) (hnz : t ≠ .zero)
    (h : ∀ n, eval n t [x, y] = none) : ∀ n g, run n (.expr g [t]) [x, y] = none
  | 0, _ => by rw [run] <;> simp
  | n + 1, g => by
    have : passTo [x, y] (fun t => eval n t [x, y]) t = none := by
      cases t with
      | arg i => exact absurd rfl (hne i)
      | zero => exact absurd rfl hnz
      | _ => simp only [passTo, h n]; rfl
    rw [run]
    simp only [List.map_cons, List.map_nil, Expr.sequence, this, Option.bind_none]

private theorem call_not_none {o : Cmp} {ps : List Rat} {x y : Data × Shape}
    (h : ∀ n t, resolve n (.op o) [x.2, y.2] ps = some t → (∀ i, t ≠ .arg i) ∧ t ≠ .zero ∧ ∀ m, eval m t [x, y] = none) :
    ∀ n, call n (.expr (.op .lnot) [.op o]) ps x y = none := by
  intro n
  cases n with
  | zero => rfl
  | succ n =>
    rw [call, Option.bind_eq_none_iff]
    intro t ht
    rw [resolve] at ht
    simp only [hasZero, List.map_cons, List.map_nil, Expr.sequence, if_neg Bool.false_ne_true,
      Option.bind_eq_some_iff, Option.map_eq_some_iff] at ht
    obtain ⟨ts, ⟨t', h1, ⟨us, h2, h3⟩⟩, ⟨g, _, rfl⟩⟩ := ht
    cases h2
    subst h3
    obtain ⟨h4, h5, h6⟩ := h n t' h1
    exact run_not_none h4 h5 h6 _ _

private theorem composite_one {is : List CTerm} (h : is.length = 1) (x y : Data) (as bs : List Shape)
    (f : CTerm → Data × Shape → Data × Shape → Option Val) :
    composite f .eqTuple is (x, .tuple as) (y, .tuple bs) = none ∧
      composite f .lexTuple is (x, .tuple as) (y, .tuple bs) = none := by
  cases x <;> cases y <;> simp [composite, h]

private theorem composite_empty (x y : Data) (as bs : List Shape) (f : CTerm → Data × Shape → Data × Shape → Option Val) :
    composite f .lexTuple [] (x, .tuple as) (y, .tuple bs) = none := by
  cases x <;> cases y <;> simp [composite, zipCalls, lexTuple]

/-- Tuples of one element: `is_equal` and `is_not_equal` do not compile. -/
theorem equal_one_fails (a b : Shape) (x y : Data) (ps : List Rat) (n : Nat) :
    call n (.op .isEqual) ps (x, .tuple [a]) (y, .tuple [b]) = none ∧
    call n isNotEqual ps (x, .tuple [a]) (y, .tuple [b]) = none := by
  constructor
  · rw [call, Option.bind_eq_none_iff]
    intro t ht
    obtain ⟨is, rfl, h⟩ := eqTuple_length ht
    exact run_comp_none (fun f => (composite_one h x y _ _ f).1) n
  · refine call_not_none (fun m t ht => ?_) n
    obtain ⟨is, rfl, h⟩ := eqTuple_length ht
    exact ⟨fun _ => by simp, by simp, eval_comp_none fun f => (composite_one h x y _ _ f).1⟩

/-- Empty tuples and tuples of one element: `compare3way`, `is_less` and `is_greater_or_equal` do not compile. -/
theorem order_short_fails (as bs : List Shape) (x y : Data) (ps : List Rat) (hl : as.length ≤ 1) (n : Nat) :
    call n (.op .cmp3) ps (x, .tuple as) (y, .tuple bs) = none ∧
    call n (.op .isLess) ps (x, .tuple as) (y, .tuple bs) = none ∧
    call n isGreaterOrEqual ps (x, .tuple as) (y, .tuple bs) = none := by
  have hs : Sequences (.tuple as) (.tuple bs) := trivial
  have hc : ∀ is : List CTerm, is.length = as.length → ∀ f, composite f .lexTuple is (x, .tuple as) (y, .tuple bs) = none := by
    intro is h f
    match is, h with
    | [], _ => exact composite_empty x y _ _ f
    | [_], _ => exact (composite_one rfl x y _ _ f).2
    | _ :: _ :: _, h => simp at h; omega
  have he : ∀ m, eval m (.op .cmp3) [(x, .tuple as), (y, .tuple bs)] = none := by
    intro m
    cases m with
    | zero => rfl
    | succ m =>
      rw [eval, Option.bind_eq_none_iff]
      intro t ht
      obtain ⟨is, rfl, h⟩ := lexTuple_length ht
      exact run_comp_none (hc is h) m
  have hl : ∀ m, run m (.expr (.op .isLess) [.op .cmp3, .zero]) [(x, .tuple as), (y, .tuple bs)] = none := by
    intro m
    cases m with
    | zero => rw [run] <;> simp
    | succ m =>
      rw [run]
      simp only [List.map_cons, List.map_nil, Expr.sequence, passTo, he m, Option.map_none, Option.bind_none]
  have hr : ∀ m t, resolve m (.op .isLess) [.tuple as, .tuple bs] ps = some t →
      t = .expr (.op .isLess) [.op .cmp3, .zero] := by
    intro m t ht
    match m with
    | 0 => cases ht
    | 1 => cases ht
    | m + 2 =>
      rw [resolve_lt hs] at ht
      exact (Option.some.inj ht).symm
  refine ⟨?_, ?_, ?_⟩
  · rw [call, Option.bind_eq_none_iff]
    intro t ht
    obtain ⟨is, rfl, h⟩ := lexTuple_length ht
    exact run_comp_none (hc is h) n
  · rw [call, Option.bind_eq_none_iff]
    intro t ht
    rw [hr n t ht]
    exact hl n
  · refine call_not_none (fun m t ht => ?_) n
    rw [hr m t ht]
    refine ⟨fun _ => by simp, by simp, fun k => ?_⟩
    match k with
    | 0 => rfl
    | 1 => rfl
    | k + 2 =>
      have : ∀ shs, resolve (k + 1) (.expr (.op .isLess) [.op .cmp3, .zero]) shs [] =
        some (.expr (.op .isLess) [.op .cmp3, .zero]) := fun _ => rfl
      rw [eval, this, Option.bind_some]
      exact hl (k + 1)

/-! ### Agreement -/

mutual

private theorem order_sizes (p q : Int) : ∀ x y : Data, SameSizes x y → order p x y = order q x y
  | .num a, .num b, _ => by rw [order, order]
  | .range xs, .range ys, h => by
    rw [SameSizes] at h
    rw [order, order]
    exact orderAll_sizes p q xs ys h
  | .tuple xs, .tuple ys, h => by
    rw [SameSizes] at h
    rw [order, order]
    exact orderAll_sizes p q xs ys h
  | .num _, .range _, h => by simp [SameSizes] at h
  | .num _, .tuple _, h => by simp [SameSizes] at h
  | .range _, .num _, h => by simp [SameSizes] at h
  | .range _, .tuple _, h => by simp [SameSizes] at h
  | .tuple _, .num _, h => by simp [SameSizes] at h
  | .tuple _, .range _, h => by simp [SameSizes] at h

private theorem orderAll_sizes (p q : Int) : ∀ xs ys : List Data, SameSizesAll xs ys → orderAll p xs ys = orderAll q xs ys
  | [], [], _ => by rw [orderAll, orderAll]
  | x :: xs, y :: ys, h => by
    rw [SameSizesAll] at h
    rw [orderAll, orderAll, order_sizes p q x y h.1, orderAll_sizes p q xs ys h.2]
  | [], _ :: _, h => by simp [SameSizesAll] at h
  | _ :: _, [], h => by simp [SameSizesAll] at h

end

mutual

private theorem order_zero (ok : Nat → Prop) (p : Int) (hp : p ≠ 0) : ∀ (x y : Data) (S T : Shape),
    Comparable ok S T → HasShape x S → HasShape y T → (order p x y = 0 ↔ Close none x y)
  | .num a, .num b, _, _, _, _, _ => by
    rw [order, Close, Near]
    rcases lt_trichotomy a.num b.num with h | h | h
    · simp [h, h.ne]
    · simp [h]
    · simp [not_lt.mpr h.le, h.ne']
  | .range xs, .range ys, .range S, .range T, hc, hx, hy => by
    rw [Comparable] at hc
    rw [HasShape] at hx hy
    rw [order, Close]
    exact orderAll_zero_range ok p hp xs ys S T hc hx hy
  | .tuple xs, .tuple ys, .tuple as, .tuple bs, hc, hx, hy => by
    rw [Comparable] at hc
    rw [HasShape] at hx hy
    rw [order, Close]
    exact orderAll_zero_tuple ok p hp xs ys as bs hc.2 hx hy
  | .num _, .range _, S, T, hc, hx, hy => by cases S <;> cases T <;> simp [HasShape, Comparable] at hc hx hy
  | .num _, .tuple _, S, T, hc, hx, hy => by cases S <;> cases T <;> simp [HasShape, Comparable] at hc hx hy
  | .range _, .num _, S, T, hc, hx, hy => by cases S <;> cases T <;> simp [HasShape, Comparable] at hc hx hy
  | .range _, .tuple _, S, T, hc, hx, hy => by cases S <;> cases T <;> simp [HasShape, Comparable] at hc hx hy
  | .tuple _, .num _, S, T, hc, hx, hy => by cases S <;> cases T <;> simp [HasShape, Comparable] at hc hx hy
  | .tuple _, .range _, S, T, hc, hx, hy => by cases S <;> cases T <;> simp [HasShape, Comparable] at hc hx hy
  | .range _, .range _, .scalar _, _, _, hx, _ => by simp [HasShape] at hx
  | .range _, .range _, .tuple _, _, _, hx, _ => by simp [HasShape] at hx
  | .range _, .range _, .op, _, _, hx, _ => by simp [HasShape] at hx
  | .range _, .range _, .range _, .scalar _, _, _, hy => by simp [HasShape] at hy
  | .range _, .range _, .range _, .tuple _, _, _, hy => by simp [HasShape] at hy
  | .range _, .range _, .range _, .op, _, _, hy => by simp [HasShape] at hy
  | .tuple _, .tuple _, .scalar _, _, _, hx, _ => by simp [HasShape] at hx
  | .tuple _, .tuple _, .range _, _, _, hx, _ => by simp [HasShape] at hx
  | .tuple _, .tuple _, .op, _, _, hx, _ => by simp [HasShape] at hx
  | .tuple _, .tuple _, .tuple _, .scalar _, _, _, hy => by simp [HasShape] at hy
  | .tuple _, .tuple _, .tuple _, .range _, _, _, hy => by simp [HasShape] at hy
  | .tuple _, .tuple _, .tuple _, .op, _, _, hy => by simp [HasShape] at hy

private theorem orderAll_zero_range (ok : Nat → Prop) (p : Int) (hp : p ≠ 0) : ∀ (xs ys : List Data) (S T : Shape),
    Comparable ok S T → HasShapeAll xs S → HasShapeAll ys T → (orderAll p xs ys = 0 ↔ CloseAll none xs ys)
  | [], [], _, _, _, _, _ => by simp [orderAll, CloseAll]
  | [], _ :: _, _, _, _, _, _ => by simp [orderAll, CloseAll, hp]
  | _ :: _, [], _, _, _, _, _ => by simp [orderAll, CloseAll, hp]
  | x :: xs, y :: ys, S, T, hc, hx, hy => by
    rw [HasShapeAll] at hx hy
    have h1 := order_zero ok p hp x y S T hc hx.1 hy.1
    have h2 := orderAll_zero_range ok p hp xs ys S T hc hx.2 hy.2
    rw [orderAll, CloseAll, ← h1, ← h2]
    by_cases h : order p x y = 0 <;> simp [h]

private theorem orderAll_zero_tuple (ok : Nat → Prop) (p : Int) (hp : p ≠ 0) : ∀ (xs ys : List Data) (as bs : List Shape),
    ComparableAll ok as bs → HaveShapes xs as → HaveShapes ys bs → (orderAll p xs ys = 0 ↔ CloseAll none xs ys)
  | [], [], _, _, _, _, _ => by simp [orderAll, CloseAll]
  | [], _ :: _, _, _, _, _, _ => by simp [orderAll, CloseAll, hp]
  | _ :: _, [], _, _, _, _, _ => by simp [orderAll, CloseAll, hp]
  | x :: xs, y :: ys, a :: as, b :: bs, hc, hx, hy => by
    rw [HaveShapes] at hx hy
    rw [ComparableAll] at hc
    have h1 := order_zero ok p hp x y a b hc.1 hx.1 hy.1
    have h2 := orderAll_zero_tuple ok p hp xs ys as bs hc.2 hx.2 hy.2
    rw [orderAll, CloseAll, ← h1, ← h2]
    by_cases h : order p x y = 0 <;> simp [h]
  | _ :: _, _ :: _, [], _, _, hx, _ => by simp [HaveShapes] at hx
  | _ :: _, _ :: _, _ :: _, [], _, _, hy => by simp [HaveShapes] at hy

end

mutual

private theorem comparable_mono {p q : Nat → Prop} (h : ∀ k, p k → q k) : ∀ S T : Shape, Comparable p S T → Comparable q S T
  | .scalar _, .scalar _, hc => by
    rw [Comparable] at hc ⊢
    exact hc
  | .range a, .range b, hc => by
    rw [Comparable] at hc ⊢
    exact comparable_mono h a b hc
  | .tuple as, .tuple bs, hc => by
    rw [Comparable] at hc ⊢
    exact ⟨h _ hc.1, comparableAll_mono h as bs hc.2⟩
  | .op, _, h => by simp [Comparable] at h
  | .scalar _, .range _, h => by simp [Comparable] at h
  | .scalar _, .tuple _, h => by simp [Comparable] at h
  | .scalar _, .op, h => by simp [Comparable] at h
  | .range _, .scalar _, h => by simp [Comparable] at h
  | .range _, .tuple _, h => by simp [Comparable] at h
  | .range _, .op, h => by simp [Comparable] at h
  | .tuple _, .scalar _, h => by simp [Comparable] at h
  | .tuple _, .range _, h => by simp [Comparable] at h
  | .tuple _, .op, h => by simp [Comparable] at h

private theorem comparableAll_mono {p q : Nat → Prop} (h : ∀ k, p k → q k) : ∀ as bs : List Shape,
    ComparableAll p as bs → ComparableAll q as bs
  | [], [], _ => by rw [ComparableAll]; trivial
  | a :: as, b :: bs, hc => by
    rw [ComparableAll] at hc ⊢
    exact ⟨comparable_mono h a b hc.1, comparableAll_mono h as bs hc.2⟩
  | [], _ :: _, h => by simp [ComparableAll] at h
  | _ :: _, [], h => by simp [ComparableAll] at h

end

/-- Without a tolerance, for operands of the same sizes, the seven comparisons agree: there is a number that
`compare3way` returns, and the others tell its sign. -/
theorem comparisons_agree (S T : Shape) (x y : Data) (hs : Sequences S T) (hc : Comparable (2 ≤ ·) S T)
    (hx : HasShape x S) (hy : HasShape y T) (hz : SameSizes x y) :
    ∃ i : Int, (i = 0 ↔ Close none x y) ∧ Calls (.op .cmp3) [] (x, S) (y, T) (.int i) ∧
      Calls (.op .isEqual) [] (x, S) (y, T) (.bool (i = 0)) ∧ Calls isNotEqual [] (x, S) (y, T) (.bool (i ≠ 0)) ∧
      Calls (.op .isLess) [] (x, S) (y, T) (.bool (i < 0)) ∧ Calls (.op .isGreater) [] (x, S) (y, T) (.bool (i > 0)) ∧
      Calls isLessOrEqual [] (x, S) (y, T) (.bool (i ≤ 0)) ∧
      Calls isGreaterOrEqual [] (x, S) (y, T) (.bool (i ≥ 0)) := by
  obtain ⟨h1, h2, h3⟩ := order_exact S T x y [] hs hc hx hy
  obtain ⟨h4, h5⟩ := greater_dictionary S T x y hs
  obtain ⟨b, h6, h7, h8⟩ := equal_close S T x y none (comparable_mono (fun k (hk : 2 ≤ k) => by omega) S T hc) hx hy
  have h9 := order_zero _ 1 (by decide) x y S T hc hx hy
  have hb : b = decide (order 1 x y = 0) := by
    rw [Bool.eq_iff_iff, h6, ← h9, decide_eq_true_iff]
  rw [order_sizes (-1) 1 x y hz] at h4 h5
  refine ⟨order 1 x y, h9, h1, ?_, ?_, h2, h4, h5, h3⟩
  · rw [← hb]
    exact h7
  · have : decide (order 1 x y ≠ 0) = !b := by rw [hb]; simp
    rw [this]
    exact h8

/-- A range and a proper prefix of it: the longer is both less and greater. -/
theorem prefix_less_greater (e : Shape) (xs zs : List Data) (z : Data) (ps : List Rat) (hc : Comparable (2 ≤ ·) e e)
    (hx : HasShapeAll xs e) (hz : HasShapeAll (z :: zs) e) :
    Calls (.op .isLess) ps (.range (xs ++ z :: zs), .range e) (.range xs, .range e) (.bool true) ∧
    Calls (.op .isGreater) [] (.range (xs ++ z :: zs), .range e) (.range xs, .range e) (.bool true) := by
  have hself : ∀ p x, HasShape x e → order p x x = 0 := by
    intro p x _
    have := order_swap p x x
    omega
  have ho : ∀ p : Int, ∀ xs, HasShapeAll xs e → orderAll p (xs ++ z :: zs) xs = -p := by
    intro p xs
    induction xs with
    | nil => intro _; rw [List.nil_append, orderAll]
    | cons x xs ih =>
      intro h
      rw [HasShapeAll] at h
      rw [List.cons_append, orderAll, if_pos (hself p x h.1), ih h.2]
  have happ : ∀ xs, HasShapeAll xs e → HasShapeAll (xs ++ z :: zs) e := by
    intro xs
    induction xs with
    | nil => intro _; exact hz
    | cons x xs ih =>
      intro h
      rw [HasShapeAll] at h
      rw [List.cons_append, HasShapeAll]
      exact ⟨h.1, ih h.2⟩
  have h1 := (order_exact (.range e) (.range e) (.range (xs ++ z :: zs)) (.range xs) ps trivial
    (by rw [Comparable]; exact hc) (by rw [HasShape]; exact happ xs hx) (by rw [HasShape]; exact hx)).2.1
  have h2 := (greater_dictionary (.range e) (.range e) (.range (xs ++ z :: zs)) (.range xs) trivial).1
  rw [order, ho _ _ hx] at h1 h2
  exact ⟨h1, h2⟩

/-- Sequences within the tolerance of each other are equal with that tolerance, and still one is less than the other
with the same tolerance. -/
theorem tolerance_equal_less (S T : Shape) (x y : Data) (eps : Rat) (hs : Sequences S T) (hc : Comparable (2 ≤ ·) S T)
    (hx : HasShape x S) (hy : HasShape y T) (hn : Close (some eps) x y) (hl : order 1 x y < 0) :
    Calls (.op .isEqual) [eps] (x, S) (y, T) (.bool true) ∧ Calls (.op .isLess) [eps] (x, S) (y, T) (.bool true) ∧
    Calls isGreaterOrEqual [eps] (x, S) (y, T) (.bool false) := by
  obtain ⟨_, h2, h3⟩ := order_exact S T x y [eps] hs hc hx hy
  obtain ⟨b, h6, h7, _⟩ :=
    equal_close S T x y (some eps) (comparable_mono (fun k (hk : 2 ≤ k) => by omega) S T hc) hx hy
  have : b = true := h6.mpr hn
  subst this
  refine ⟨h7, ?_, ?_⟩
  · rw [decide_eq_true hl] at h2
    exact h2
  · rw [decide_eq_false (by omega)] at h3
    exact h3

/-! ### Cases -/

/-- A vector of pairs of an integer and a vector of floating point numbers. -/
private def sh : Shape := .range (.tuple [.scalar .int, .range (.scalar .real)])
private def d1 : Data := .range [.tuple [.num (.int 1), .range [.num (.real 2), .num (.real (1 / 2))]],
  .tuple [.num (.int 3), .range []]]
private def d2 : Data := .range [.tuple [.num (.int 1), .range [.num (.real 2), .num (.real (3 / 4))]],
  .tuple [.num (.int 3), .range []]]

private theorem sh_ok : Comparable (2 ≤ ·) sh sh := by simp [sh, Comparable, ComparableAll, Expr.Ty.arithmetic]
private theorem d1_ok : HasShape d1 sh := by simp [d1, sh, HasShape, HasShapeAll, HaveShapes, Expr.Val.ty]
private theorem d2_ok : HasShape d2 sh := by simp [d2, sh, HasShape, HasShapeAll, HaveShapes, Expr.Val.ty]
private theorem d12_order : order 1 d1 d2 = -1 := by
  simp [d1, d2, order, orderAll, Expr.Val.num]
  norm_num
private theorem d12_close : Close (some (1 / 4)) d1 d2 := by
  simp [d1, d2, Close, CloseAll, Near, Expr.Val.num]
  norm_num [abs_le]

example : Calls (.op .isEqual) [1 / 4] (d1, sh) (d2, sh) (.bool true) ∧
    Calls (.op .isLess) [1 / 4] (d1, sh) (d2, sh) (.bool true) ∧
    Calls isGreaterOrEqual [1 / 4] (d1, sh) (d2, sh) (.bool false) :=
  tolerance_equal_less sh sh d1 d2 _ trivial sh_ok d1_ok d2_ok d12_close (by rw [d12_order]; decide)

example : ∃ i : Int, (i = 0 ↔ Close none d1 d2) ∧ Calls (.op .cmp3) [] (d1, sh) (d2, sh) (.int i) := by
  obtain ⟨i, h1, h2, _⟩ := comparisons_agree sh sh d1 d2 trivial sh_ok d1_ok d2_ok
    (by simp [d1, d2, SameSizes, SameSizesAll])
  exact ⟨i, h1, h2⟩

example : ¬ Close (some (1 / 8)) d1 d2 := by
  simp [d1, d2, Close, CloseAll, Near, Expr.Val.num]
  norm_num [abs_le]

example : Calls (.op .isLess) [] (.range [.num (.int 1), .num (.int 2)], .range (.scalar .int))
      (.range [.num (.int 1)], .range (.scalar .int)) (.bool true) ∧
    Calls (.op .isGreater) [] (.range [.num (.int 1), .num (.int 2)], .range (.scalar .int))
      (.range [.num (.int 1)], .range (.scalar .int)) (.bool true) :=
  prefix_less_greater (.scalar .int) [.num (.int 1)] [] (.num (.int 2)) []
    (by simp [Comparable, Expr.Ty.arithmetic]) (by simp [HasShapeAll, HasShape, Expr.Val.ty])
    (by simp [HasShapeAll, HasShape, Expr.Val.ty])

example : call 9 (.op .isGreater) [1 / 4] (d1, sh) (d2, sh) = none :=
  (greater_tolerance_fails sh sh d1 d2 [1 / 4] trivial (by simp) 9).1

example : call 9 (.op .isEqual) [] (.tuple [.num (.int 1)], .tuple [.scalar .int])
    (.tuple [.num (.int 1)], .tuple [.scalar .int]) = none :=
  (equal_one_fails _ _ _ _ [] 9).1

end Actl.Composite
