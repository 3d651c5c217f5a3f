import Verif.Lemmas.Expression

/-!
# C82: expressions of operations mean what they say

* `eval_iff`, `eval_sound`, `call_iff`: an expression of operations is evaluated to its meaning.
* `comparisons`, `implies_eval`, `sgn_squared`, `ifElse_eval`: the operations defined by expressions.
* `tolerant`, `tolerant_cmp3`: comparisons with the policy `absolute_error`.
* `inout_meaning`: operations with an `inout` argument.
* `sgn_ignores`, `sgn_not_tolerant`, `inout_squared_fails`: where the code falls short.
-/

namespace Actl.Expr

/-! ### The built-in operators -/

theorem trunc_neg (q : Rat) : trunc (-q) = -trunc q := by
  unfold trunc
  rcases lt_trichotomy q 0 with h | rfl | h
  · rw [if_pos (by linarith), if_neg (by linarith), Int.floor_neg]
  · simp
  · rw [if_neg (by linarith), if_pos (by linarith), Int.ceil_neg]

theorem trunc_int (n : Int) : trunc (n : Rat) = n := by
  unfold trunc
  split_ifs
  · exact Int.floor_intCast n
  · exact Int.ceil_intCast n

theorem tdiv_trunc (x y : Int) : x.tdiv y = trunc ((x : Rat) / y) := by
  have base : ∀ m n : Nat, (m : Int).tdiv n = trunc ((m : Int) / (n : Int) : Rat) := by
    intro m n
    have h : (0 : Rat) ≤ ((m : Int) : Rat) / ((n : Int) : Rat) := by positivity
    unfold trunc
    rw [if_pos h]
    have := Rat.floor_intCast_div_natCast (m : Int) n
    rw [Int.cast_natCast n, this]
    rfl
  rcases Int.eq_nat_or_neg x with ⟨m, rfl | rfl⟩ <;> rcases Int.eq_nat_or_neg y with ⟨n, rfl | rfl⟩
  · exact base m n
  · rw [Int.tdiv_neg, base]
    push_cast
    rw [div_neg, trunc_neg]
  · rw [Int.neg_tdiv, base]
    push_cast
    rw [neg_div, trunc_neg]
  · rw [Int.neg_tdiv, Int.tdiv_neg, base]
    push_cast
    rw [neg_div_neg_eq, neg_neg]

theorem toInt_num (a : Val) (x : Int) (h : a.toInt? = some x) : a.ty.integral = true ∧ a.num = x := by
  cases a with
  | bool b => cases b <;> simp_all [Val.toInt?, Val.ty, Ty.integral, Val.num] <;> simp [← h]
  | int n => simp_all [Val.toInt?, Val.ty, Ty.integral, Val.num]
  | real q => simp [Val.toInt?] at h
  | const c => simp [Val.toInt?] at h

theorem ratInt_trunc (q : Rat) : q.num.tdiv q.den = trunc q := by
  rw [tdiv_trunc, Int.cast_natCast, Rat.num_div_den]

/-- Built-in operators. -/
theorem arith_result (f : Int → Int → Option Int) (g : Rat → Rat → Option Rat)
    (hf : ∀ x y : Int, f x y = (g x y).map trunc) (a b : Val) :
    arith f g a b = (g a.num b.num).bind (result a b) := by
  have h1 : ((1 : Int) : Rat) = 1 := rfl
  have h0 : ((0 : Int) : Rat) = 0 := rfl
  have e : ∀ (g : Option Rat), (g.map trunc).map Val.int = g.bind fun q => some (.int (trunc q)) := by
    intro g; cases g <;> rfl
  have e' : ∀ (g : Option Rat), g.map Val.real = g.bind fun q => some (.real q) := by
    intro g; cases g <;> rfl
  have e'' : ∀ (g : Option Rat), (g.bind fun _ => (none : Option Val)) = none := by
    intro g; cases g <;> rfl
  cases a with
  | bool x =>
    cases b with
    | bool y => cases x <;> cases y <;>
        simp only [arith, Val.toInt?, Val.ty, Val.num, hf, result, Ty.integral, e] <;> rfl
    | int y => cases x <;>
        simp only [arith, Val.toInt?, Val.ty, Val.num, hf, result, Ty.integral, e] <;> rfl
    | real y =>
      cases x <;>
      simp only [arith, Val.toInt?, Val.toRat?, Val.ty, Val.num, result, Ty.integral, e'] <;> rfl
    | const y =>
      cases x <;>
      simp only [arith, Val.toInt?, Val.toRat?, Val.ty, Val.num, result, Ty.integral] <;>
        exact (e'' _).symm
  | int x =>
    cases b with
    | bool y => cases y <;>
        simp only [arith, Val.toInt?, Val.ty, Val.num, hf, result, Ty.integral, e] <;> rfl
    | int y => simp only [arith, Val.toInt?, Val.ty, Val.num, hf, result, Ty.integral, e]; rfl
    | real y =>
      simp only [arith, Val.toInt?, Val.toRat?, Val.ty, Val.num, result, Ty.integral, e']
      rfl
    | const y =>
      simp only [arith, Val.toInt?, Val.toRat?, Val.ty, Val.num, result, Ty.integral]
      exact (e'' _).symm
  | real x =>
    cases b with
    | const y =>
      simp only [arith, Val.toInt?, Val.toRat?, Val.ty, Val.num, result, Ty.integral]
      exact (e'' _).symm
    | _ => 
      simp only [arith, Val.toInt?, Val.toRat?, Val.ty, Val.num, result, Ty.integral, e']
      rfl
  | const x =>
    cases b <;>
    simp only [arith, Val.toInt?, Val.toRat?, Val.ty, Val.num, result, Ty.integral] <;>
      exact (e'' _).symm

theorem prim_sub (a b : Val) : prim .subS [a, b] = result a b (a.num - b.num) :=
  arith_result _ (fun x y => some (x - y)) (fun x y => by
    rw [Option.map_some, ← Int.cast_sub, trunc_int]) a b

theorem prim_add (a b : Val) : prim .addInt [a, b] = result a b (a.num + b.num) :=
  arith_result _ (fun x y => some (x + y)) (fun x y => by
    rw [Option.map_some, ← Int.cast_add, trunc_int]) a b

theorem prim_mul (a b : Val) : prim .mulInt [a, b] = result a b (a.num * b.num) :=
  arith_result _ (fun x y => some (x * y)) (fun x y => by
    rw [Option.map_some, ← Int.cast_mul, trunc_int]) a b

theorem prim_div (a b : Val) :
    prim .divS [a, b] = if b.num = 0 then none else result a b (a.num / b.num) := by
  refine (arith_result _ (fun x y => if y = 0 then none else some (x / y)) (fun x y => ?_) a b).trans ?_
  · by_cases h : y = 0
    · rw [if_pos h, if_pos (by exact_mod_cast h)]
      rfl
    · rw [if_neg h, if_neg (by exact_mod_cast h), Option.map_some, ← tdiv_trunc]
  · split_ifs <;> rfl

theorem prim_neg (a : Val) : prim .negS [a] = result a a (-a.num) := by
  cases a with
  | bool b =>
    cases b
    · simp [prim, result, Val.ty, Ty.integral, Val.num, trunc]
    · have := trunc_int (-1)
      simp only [Int.cast_neg, Int.cast_one] at this
      simp [prim, result, Val.ty, Ty.integral, Val.num, this]
  | int n =>
    have := trunc_int (-n)
    simp only [Int.cast_neg] at this
    simp [prim, result, Val.ty, Ty.integral, Val.num, this]
  | real q => simp [prim, result, Val.ty, Ty.integral, Ty.arithmetic, Val.num]
  | const c => simp [prim, result, Val.ty, Ty.integral, Ty.arithmetic]

theorem prim_abs (a : Val) :
    prim .absS [a] = if a.ty = .bool then some a else result a a |a.num| := by
  cases a with
  | bool b => simp [prim, Val.ty]
  | int n =>
    have := trunc_int |n|
    simp only [Int.cast_abs] at this
    simp [prim, result, Val.ty, Ty.integral, Val.num, this]
  | real q => simp [prim, result, Val.ty, Ty.integral, Ty.arithmetic, Val.num]
  | const c => simp [prim, result, Val.ty, Ty.integral, Ty.arithmetic]

theorem prim_asInt (a : Val) : prim .asInt [a] = some (.int (trunc a.num)) := by
  cases a with
  | bool b =>
    cases b
    · simp [prim, Val.num, trunc]
    · have := trunc_int 1
      simp only [Int.cast_one] at this
      simp [prim, Val.num, this]
  | int n => simp [prim, Val.num, trunc_int]
  | real q => simp [prim, Val.num, ratInt_trunc]
  | const c => simp [prim, Val.num, trunc_int]

/-- The meaning of operations does not depend on the implementation. -/
theorem sem_opMeaning (o : Op) (vs : List Val) : sem o vs = opMeaning o vs := by
  match vs with
  | [] => cases o <;> rfl
  | [a] =>
    cases o <;> first
      | rfl
      | exact prim_neg a
      | exact prim_abs a
      | exact prim_asInt a
      | (cases a <;> rfl)
      | (simp only [sem, opMeaning]
         rw [prim_mul]
         cases a <;> rfl)
  | [a, b] =>
    cases o <;> first
      | rfl
      | exact prim_sub a b
      | exact prim_add a b
      | exact prim_mul a b
      | exact prim_div a b
      | (simp only [sem, opMeaning, prim_add, prim_mul]; done)
      | (cases a <;> cases b <;> rfl)
  | [a, b, c] =>
    cases o <;> first
      | rfl
      | (simp [sem, opMeaning, prim]; done)
      | (simp only [sem, opMeaning, prim, Val.truth, decide_eq_true_eq]; done)
  | a :: b :: c :: d :: l => cases o <;> simp [sem, opMeaning, prim]

mutual

theorem mean_meaning : ∀ (t : Term) (vs : List Val), mean t vs = meaning t vs
  | .val _, _ => rfl
  | .arg _ _, _ => rfl
  | .op o, vs => sem_opMeaning o vs
  | .tuned _ _, _ => rfl
  | .expr h args, vs => by
    have : mean h = meaning h := funext (mean_meaning h)
    rw [mean, meaning, meanAll_meaning args vs, this]

theorem meanAll_meaning : ∀ (ts : List Term) (vs : List Val), meanAll ts vs = meaningAll ts vs
  | [], _ => rfl
  | t :: ts, vs => by rw [meanAll, meaningAll, mean_meaning t vs, meanAll_meaning ts vs]

end

/-! ### The claims -/

/-- An expression of operations without policies, in which every operation gets as many arguments as
it takes, is evaluated to its meaning, and has no value otherwise. -/
theorem eval_iff (t : Term) (v : Val) (hp : Plain t) (ht : Takes 0 t) :
    (∃ n₀, ∀ n, n₀ ≤ n → eval n t = some v) ↔ meaning t [] = some v := by
  constructor
  · rintro ⟨n₀, h⟩
    rw [← mean_meaning]
    exact eval_mean n₀ t v hp (h n₀ (le_refl _))
  · intro h
    rw [← mean_meaning] at h
    exact mean_eval t v hp ht h

/-- Whatever is evaluated is the meaning, however much fuel there is. -/
theorem eval_sound (n : Nat) (t : Term) (v : Val) (hp : Plain t) (h : eval n t = some v) :
    meaning t [] = some v := by
  rw [← mean_meaning]
  exact eval_mean n t v hp h

/-- An operation or an expression with operations called with values. -/
theorem call_iff (t : Term) (us : List Val) (v : Val) (hp : Plain t) (ht : Takes us.length t)
    (ho : isOperation t = true) (ha : ¬ isArg t) :
    (∃ n₀, ∀ n, n₀ ≤ n → eval n (.expr t (us.map .val)) = some v) ↔ meaning t us = some v := by
  constructor
  · rintro ⟨n₀, h⟩
    have := eval_mean n₀ (.expr t (us.map .val)) v ⟨hp, plainAll_val us⟩ (h n₀ (le_refl _))
    rw [mean_apply] at this
    rw [← mean_meaning]
    exact this
  · intro h
    rw [← mean_meaning] at h
    exact call_eval t us v hp ht ho ha h

theorem not_le_bool (x y : Rat) : decide (y < x) = !decide (x ≤ y) := by
  by_cases h : x ≤ y
  · simp [h]
  · simp [h, not_le.mp h]

theorem le_bool (x y : Rat) : decide (x ≤ y) = !decide (y < x) := by
  rw [not_le_bool, Bool.not_not]

theorem num_int (n : Int) : (Val.int n).num = n := rfl
theorem num_real (q : Rat) : (Val.real q).num = q := rfl

/-- `is_not_equal`, `is_less_or_equal`, `is_greater_or_equal`, `is_greater`, `compare3way` of numbers. -/
theorem comparisons (a b : Val) (ha : a.ty.arithmetic = true) (hb : b.ty.arithmetic = true) :
    Evals (.expr isNotEqual [.val a, .val b]) (.bool (a.num ≠ b.num)) ∧
    Evals (.expr isLessOrEqual [.val a, .val b]) (.bool (a.num ≤ b.num)) ∧
    Evals (.expr isGreaterOrEqual [.val a, .val b]) (.bool (a.num ≥ b.num)) ∧
    Evals (.expr (.op .isGreater) [.val a, .val b]) (.bool (a.num > b.num)) ∧
    Evals (.expr (.op .cmp3) [.val a, .val b]) (.int (sign (a.num - b.num))) := by
  refine ⟨(call_iff isNotEqual [a, b] _ ?_ ?_ rfl (by simp [isArg, isNotEqual])).mpr ?_,
    (call_iff isLessOrEqual [a, b] _ ?_ ?_ rfl (by simp [isArg, isLessOrEqual])).mpr ?_,
    (call_iff isGreaterOrEqual [a, b] _ ?_ ?_ rfl (by simp [isArg, isGreaterOrEqual])).mpr ?_,
    (call_iff (.op .isGreater) [a, b] _ ?_ ?_ rfl (by simp [isArg])).mpr ?_,
    (call_iff (.op .cmp3) [a, b] _ ?_ ?_ rfl (by simp [isArg])).mpr ?_⟩ <;>
  simp [isNotEqual, isLessOrEqual, isGreaterOrEqual, Plain, PlainAll, Takes, TakesAll, arity, isArg,
    isOperation, meaning, meaningAll, apply, sequence, opMeaning, ha, hb]
  · exact not_le_bool _ _
  · exact not_le_bool _ _

/-- `logical_implies`. -/
theorem implies_eval (a b : Bool) :
    Evals (.expr implies [.val (.bool a), .val (.bool b)]) (.bool (a → b)) := by
  refine (call_iff implies [.bool a, .bool b] _ ?_ ?_ rfl (by simp [isArg, implies])).mpr ?_ <;>
  cases a <;> cases b <;>
  simp [implies, Plain, PlainAll, Takes, TakesAll, arity, isArg, l_, r_,
    isOperation, meaning, meaningAll, apply, sequence, opMeaning]

/-- `sgn` and `squared`. -/
theorem sgn_squared (a : Val) (ha : a.ty.arithmetic = true) :
    Evals (.expr (.op .sgn) [.val a]) (.int (sign a.num)) ∧
    ∃ v, Evals (.expr (.op .squared) [.val a]) v ∧ v.num = a.num * a.num := by
  refine ⟨(call_iff (.op .sgn) [a] _ ?_ ?_ rfl (by simp [isArg])).mpr ?_, ?_⟩
  · simp [Plain]
  · simp [Takes, arity]
  · simp [meaning, opMeaning, ha]
  · have key : ∀ v, result a a (a.num * a.num) = some v → v.num = a.num * a.num →
        ∃ v, Evals (.expr (.op .squared) [.val a]) v ∧ v.num = a.num * a.num := fun v h1 h2 =>
      ⟨v, (call_iff (.op .squared) [a] v trivial rfl rfl (by simp [isArg])).mpr h1, h2⟩
    cases a with
    | bool b =>
      cases b
      · exact key _ rfl (by simp [Val.num, trunc])
      · have := trunc_int 1
        simp only [Int.cast_one] at this
        exact key _ rfl (by simp [Val.num, this])
    | int n =>
      refine key _ rfl ?_
      have := trunc_int (n * n)
      simp only [Int.cast_mul] at this
      simp [Val.num, this]
    | real q => exact key _ rfl rfl
    | const c => simp [Val.ty, Ty.arithmetic] at ha

/-- `if_else` gives the selected value whatever the other one is: it is not evaluated. -/
theorem ifElse_eval (c a b : Term) (x v : Val) (h : Evals c x)
    (hv : Evals (if x.num ≠ 0 then a else b) v) : Evals (.expr (.op .ifElse) [c, a, b]) v := by
  obtain ⟨n₁, h1⟩ := h
  obtain ⟨n₂, h2⟩ := hv
  refine ⟨max n₁ n₂ + 1, fun n hn => ?_⟩
  obtain ⟨n, rfl⟩ : ∃ m, n = m + 1 := ⟨n - 1, by omega⟩
  rw [eval_expr]
  simp only [List.map_cons, List.map_nil, apply, h1 n (by omega), Option.bind_some]
  have := h2 n (by omega)
  split_ifs at this ⊢ <;> exact this

/-! ### Policies -/

/-- What is resolved with a policy is applied without it. -/
theorem tuned_eval (t : Term) (eps : Rat) (us : List Val) (v : Val) (h : Term) (args : List Term)
    (n₀ : Nat) (hr : ∀ n, n₀ ≤ n → resolve n (.tuned t eps) (us.map Val.ty) [] = some (.expr h args))
    (hp : Plain (.expr h args)) (ht : Takes us.length (.expr h args))
    (hm : meaning (.expr h args) us = some v) :
    Evals (.expr (.tuned t eps) (us.map .val)) v := by
  rw [← mean_meaning] at hm
  obtain ⟨t', h1, n₁, h2⟩ := (all_ok _ _ (le_refl _)).1 us v ht hp hm
  refine ⟨max n₀ n₁ + 2, fun n hn => ?_⟩
  obtain ⟨n, rfl⟩ : ∃ m, n = m + 1 := ⟨n - 1, by omega⟩
  obtain ⟨m, rfl⟩ : ∃ m, n = m + 1 := ⟨n - 1, by omega⟩
  rw [eval_expr]
  have : (us.map Term.val).map (eval (m + 1)) = us.map some := by
    rw [List.map_map]
    rfl
  rw [this, apply_some _ _ (fun e => by cases e), app, hr _ (by omega), Option.bind_some]
  simp only [h1, Option.bind_some]
  exact h2 _ (by omega)

/-- What equality and order become with the policy. -/
def eqEps (eps : Rat) : Term :=
  .expr isLessOrEqual [.expr (.op .abs) [.op .sub], .val (.real eps)]
@[inherit_doc eqEps] def ltEps (eps : Rat) : Term :=
  .expr (.op .isLess) [.val (.real eps), .expr (.op .sub) [r_, l_]]

theorem resolve_eqEps (n : Nat) (tys : List Ty) (eps : Rat) :
    resolve (n + 1) (eqEps eps) tys [] = some (eqEps eps) := rfl

theorem resolve_ltEps (n : Nat) (tys : List Ty) (eps : Rat) :
    resolve (n + 1) (ltEps eps) tys [] = some (ltEps eps) := rfl

theorem resolve_isEqual (n : Nat) (a b : Ty) (eps : Rat) (ha : a.arithmetic = true)
    (hb : b.arithmetic = true) :
    resolve (n + 3) (.op .isEqual) [a, b] [eps] = some (eqEps eps) := by
  rw [resolve]
  simp only [formula, ha, hb, Bool.and_self, if_true]
  rfl

theorem resolve_isLess (n : Nat) (tys : List Ty) (eps : Rat) :
    resolve (n + 3) (.op .isLess) tys [eps] = some (ltEps eps) := rfl

theorem resolve_isGreater (n : Nat) (tys : List Ty) (eps : Rat) :
    resolve (n + 5) (.op .isGreater) tys [eps] = some (.expr (ltEps eps) [r_, l_]) := by
  rfl

theorem resolve_asInt (n : Nat) (tys : List Ty) (o : Op) (t : Term) (eps : Rat)
    (ho : (formula o tys).isSome = true) (h : resolve (n + 1) (.op o) tys [eps] = some t) :
    resolve (n + 2) (.expr (.op .asInt) [.op o]) tys [eps] = some (.expr (.op .asInt) [t]) := by
  rw [resolve, if_neg]
  · simp only [List.map_cons, List.map_nil, sequence, h]
    rfl
  · obtain ⟨f, hf⟩ := Option.isSome_iff_exists.mp ho
    simp [isResolved, allOperations, allResolved, hf, isOperation]

theorem resolve_not (n : Nat) (tys : List Ty) (o : Op) (t : Term) (eps : Rat)
    (ho : (formula o tys).isSome = true) (h : resolve (n + 1) (.op o) tys [eps] = some t)
    (hty : rawTy t = .op) :
    resolve (n + 2) (.expr (.op .lnot) [.op o]) tys [eps] = some (.expr (.op .lnot) [t]) := by
  rw [resolve, if_neg]
  · simp only [List.map_cons, List.map_nil, sequence, h, Option.bind_some, Option.map_some, rawTys,
      hty]
    rfl
  · obtain ⟨f, hf⟩ := Option.isSome_iff_exists.mp ho
    simp [isResolved, allOperations, allResolved, hf, isOperation]

theorem sub_num (a b : Val) (ha : a.ty.arithmetic = true) (hb : b.ty.arithmetic = true) :
    ∃ v, result a b (a.num - b.num) = some v ∧ v.num = a.num - b.num ∧ v.ty ≠ .bool ∧
      v.ty.arithmetic = true := by
  have h : ∀ x : Int, a.num - b.num = x → trunc (a.num - b.num) = x := fun x e => by
    rw [e, trunc_int]
  have hi : ∀ v : Val, v.ty.integral = true → ∃ x : Int, v.num = x := by
    intro v hv
    cases v with
    | bool b => cases b
                · exact ⟨0, by simp [Val.num]⟩
                · exact ⟨1, by simp [Val.num]⟩
    | int n => exact ⟨n, rfl⟩
    | real q => simp [Val.ty, Ty.integral] at hv
    | const c => exact ⟨c, rfl⟩
  unfold result
  by_cases hab : (a.ty.integral && b.ty.integral) = true
  · rw [if_pos hab]
    rw [Bool.and_eq_true] at hab
    obtain ⟨x, hx⟩ := hi a hab.1
    obtain ⟨y, hy⟩ := hi b hab.2
    refine ⟨_, rfl, ?_, by simp [Val.ty], rfl⟩
    rw [h (x - y) (by rw [hx, hy, Int.cast_sub])]
    rw [num_int, Int.cast_sub, hx, hy]
  · rw [if_neg hab, if_pos (by simp [ha, hb])]
    exact ⟨_, rfl, rfl, by simp [Val.ty], rfl⟩

theorem abs_num (a : Val) (ha : a.ty.arithmetic = true) (hb : a.ty ≠ .bool) :
    ∃ v, result a a |a.num| = some v ∧ v.num = |a.num| := by
  cases a with
  | bool b => simp [Val.ty] at hb
  | int n =>
    refine ⟨_, rfl, ?_⟩
    have := trunc_int |n|
    simp only [Int.cast_abs] at this
    simp [Val.num, this]
  | real q => exact ⟨_, rfl, rfl⟩
  | const c => simp [Val.ty, Ty.arithmetic] at ha

theorem meaning_ltEps (a b : Val) (eps : Rat) (ha : a.ty.arithmetic = true)
    (hb : b.ty.arithmetic = true) :
    meaning (ltEps eps) [a, b] = some (.bool (eps < b.num - a.num)) := by
  obtain ⟨v, h1, h2, _⟩ := sub_num b a hb ha
  simp [ltEps, meaning, meaningAll, apply, sequence, opMeaning, l_, r_, h1, h2, num_real]

theorem meaning_eqEps (a b : Val) (eps : Rat) (ha : a.ty.arithmetic = true)
    (hb : b.ty.arithmetic = true) :
    meaning (eqEps eps) [a, b] = some (.bool (|a.num - b.num| ≤ eps)) := by
  obtain ⟨v, h1, h2, h3, h4⟩ := sub_num a b ha hb
  obtain ⟨w, h5, h6⟩ := abs_num v h4 h3
  rw [h2] at h5 h6
  simp [eqEps, isLessOrEqual, meaning, meaningAll, apply, sequence, opMeaning, h1, h3, h5, h6,
    num_real, h2]
  exact not_le_bool _ _

/-- With `absolute_error` the comparisons of numbers take the tolerance into account. -/
theorem tolerant (a b : Val) (eps : Rat) (ha : a.ty.arithmetic = true) (hb : b.ty.arithmetic = true) :
    Evals (.expr (.tuned (.op .isEqual) eps) [.val a, .val b]) (.bool (|a.num - b.num| ≤ eps)) ∧
    Evals (.expr (.tuned isNotEqual eps) [.val a, .val b]) (.bool (¬ |a.num - b.num| ≤ eps)) ∧
    Evals (.expr (.tuned (.op .isLess) eps) [.val a, .val b]) (.bool (a.num + eps < b.num)) ∧
    Evals (.expr (.tuned (.op .isGreater) eps) [.val a, .val b]) (.bool (b.num + eps < a.num)) ∧
    Evals (.expr (.tuned isLessOrEqual eps) [.val a, .val b]) (.bool (a.num ≤ b.num + eps)) ∧
    Evals (.expr (.tuned isGreaterOrEqual eps) [.val a, .val b]) (.bool (b.num ≤ a.num + eps)) := by
  have l1 : ∀ x y : Rat, decide (eps < y - x) = decide (x + eps < y) := fun x y => by
    rw [decide_eq_decide]
    constructor <;> intro h <;> linarith
  have p1 : Plain (eqEps eps) := by simp [eqEps, isLessOrEqual, Plain, PlainAll]
  have p2 : Plain (ltEps eps) := by simp [ltEps, Plain, PlainAll, l_, r_]
  have t1 : Takes 2 (eqEps eps) := by
    simp [eqEps, isLessOrEqual, Takes, TakesAll, arity, isOperation, anyOperation, isArg]
  have t2 : Takes 2 (ltEps eps) := by
    simp [ltEps, Takes, TakesAll, arity, isOperation, isArg, l_, r_]
  have o1 : isOperation (eqEps eps) = true := rfl
  have o2 : isOperation (ltEps eps) = true := rfl
  have a1 : ¬ isArg (eqEps eps) := by simp [eqEps, isArg]
  have a2 : ¬ isArg (ltEps eps) := by simp [ltEps, isArg]
  have m1 := meaning_eqEps a b eps ha hb
  have m2 := meaning_ltEps a b eps ha hb
  have m3 := meaning_ltEps b a eps hb ha
  have tg : Takes 2 (.expr (ltEps eps) [r_, l_]) := by
    simp [Takes, TakesAll, o2, a2, t2, r_, l_]
  have mg : meaning (.expr (ltEps eps) [r_, l_]) [a, b] = some (.bool (eps < a.num - b.num)) := by
    simp only [meaning, meaningAll, apply, sequence, r_, l_]
    simpa using m3
  have fe : (formula .isEqual [a.ty, b.ty]).isSome = true := by simp [formula, ha, hb]
  refine ⟨tuned_eval (.op .isEqual) eps [a, b] _ isLessOrEqual
      [.expr (.op .abs) [.op .sub], .val (.real eps)] 4 (fun n hn => ?_) p1 t1 m1,
    tuned_eval isNotEqual eps [a, b] _ (.op .lnot) [eqEps eps] 6 (fun n hn => ?_)
      ⟨trivial, p1, trivial⟩ ⟨⟨rfl, by simp [isArg], rfl⟩, t1, trivial⟩ ?_,
    tuned_eval (.op .isLess) eps [a, b] _ (.op .isLess)
      [.val (.real eps), .expr (.op .sub) [r_, l_]] 4 (fun n hn => ?_) p2 t2 ?_,
    tuned_eval (.op .isGreater) eps [a, b] _ (ltEps eps) [r_, l_] 6 (fun n hn => ?_)
      ⟨p2, trivial, trivial, trivial⟩ tg ?_,
    tuned_eval isLessOrEqual eps [a, b] _ (.op .lnot) [.expr (ltEps eps) [r_, l_]] 8
      (fun n hn => ?_) ⟨trivial, ⟨p2, trivial, trivial, trivial⟩, trivial⟩
      ⟨⟨rfl, by simp [isArg], rfl⟩, tg, trivial⟩ ?_,
    tuned_eval isGreaterOrEqual eps [a, b] _ (.op .lnot) [ltEps eps] 6 (fun n hn => ?_)
      ⟨trivial, p2, trivial⟩ ⟨⟨rfl, by simp [isArg], rfl⟩, t2, trivial⟩ ?_⟩
  · obtain ⟨m, rfl⟩ : ∃ m, n = m + 4 := ⟨n - 4, by omega⟩
    exact resolve_isEqual m _ _ eps ha hb
  · obtain ⟨m, rfl⟩ : ∃ m, n = m + 6 := ⟨n - 6, by omega⟩
    exact resolve_not _ _ _ _ eps fe (resolve_isEqual (m + 1) _ _ eps ha hb) rfl
  · simp [meaning, meaningAll, apply, sequence, opMeaning, m1]
    exact le_bool _ _
  · obtain ⟨m, rfl⟩ : ∃ m, n = m + 4 := ⟨n - 4, by omega⟩
    exact resolve_isLess m [a.ty, b.ty] eps
  · rw [← l1]
    exact m2
  · obtain ⟨m, rfl⟩ : ∃ m, n = m + 6 := ⟨n - 6, by omega⟩
    exact resolve_isGreater m _ eps
  · rw [← l1]
    exact mg
  · obtain ⟨m, rfl⟩ : ∃ m, n = m + 8 := ⟨n - 8, by omega⟩
    exact resolve_not _ _ _ _ eps rfl (resolve_isGreater (m + 1) _ eps) rfl
  · rw [meaning, meaningAll, meaningAll, mg]
    simp only [apply, sequence, Option.bind_some, Option.map_some, meaning, opMeaning, l1]
    rw [le_bool]
  · obtain ⟨m, rfl⟩ : ∃ m, n = m + 6 := ⟨n - 6, by omega⟩
    exact resolve_not _ _ _ _ eps rfl (resolve_isLess (m + 1) _ eps) rfl
  · rw [meaning, meaningAll, meaningAll, m2]
    simp only [apply, sequence, Option.bind_some, Option.map_some, meaning, opMeaning, l1]
    rw [le_bool]

/-- Three-way comparison with `absolute_error`: numbers within the tolerance are equal. -/
theorem tolerant_cmp3 (a b : Val) (eps : Rat) (ha : a.ty.arithmetic = true)
    (hb : b.ty.arithmetic = true) (he : 0 ≤ eps) :
    Evals (.expr (.tuned (.op .cmp3) eps) [.val a, .val b])
      (.int (if |a.num - b.num| ≤ eps then 0 else sign (a.num - b.num))) := by
  have p2 : Plain (ltEps eps) := by simp [ltEps, Plain, PlainAll, l_, r_]
  have t2 : Takes 2 (ltEps eps) := by
    simp [ltEps, Takes, TakesAll, arity, isOperation, isArg, l_, r_]
  have a2 : ¬ isArg (ltEps eps) := by simp [ltEps, isArg]
  have o2 : isOperation (ltEps eps) = true := rfl
  have m2 := meaning_ltEps a b eps ha hb
  have m3 := meaning_ltEps b a eps hb ha
  have tg : Takes 2 (.expr (ltEps eps) [r_, l_]) := by
    simp [Takes, TakesAll, o2, a2, t2, r_, l_]
  have mg : meaning (.expr (ltEps eps) [r_, l_]) [a, b] = some (.bool (eps < a.num - b.num)) := by
    simp only [meaning, meaningAll, apply, sequence, r_, l_]
    simpa using m3
  refine tuned_eval (.op .cmp3) eps [a, b] _ (.op .sub)
    [.expr (.op .asInt) [.expr (ltEps eps) [r_, l_]], .expr (.op .asInt) [ltEps eps]] 12
    (fun n hn => ?_) ?_ ?_ ?_
  · obtain ⟨m, rfl⟩ : ∃ m, n = m + 12 := ⟨n - 12, by omega⟩
    have h1 := resolve_asInt (m + 6) [a.ty, b.ty] .isGreater _ eps rfl
      (resolve_isGreater (m + 2) _ eps)
    have h2 := resolve_asInt (m + 6) [a.ty, b.ty] .isLess _ eps rfl (resolve_isLess (m + 4) _ eps)
    show resolve (m + 9) (.expr (.op .sub) [.expr (.op .asInt) [.op .isGreater],
      .expr (.op .asInt) [.op .isLess]]) [a.ty, b.ty] [eps] = _
    rw [resolve, if_neg]
    · simp only [List.map_cons, List.map_nil, sequence, h1, h2, Option.bind_some, Option.map_some]
      rfl
    · simp [isResolved, allOperations, allResolved, isOperation, anyOperation, formula]
  · simp [Plain, PlainAll, p2, r_, l_]
  · refine ⟨⟨rfl, by simp [isArg], rfl⟩, ⟨⟨rfl, by simp [isArg], rfl⟩, tg, trivial⟩,
      ⟨⟨rfl, by simp [isArg], rfl⟩, t2, trivial⟩, trivial⟩
  · have i1 : ∀ p : Prop, [Decidable p] → trunc (Val.num (.bool (decide p))) = if p then 1 else 0 := by
      intro p _
      have := trunc_int 1
      simp only [Int.cast_one] at this
      by_cases hp : p <;> simp [hp, Val.num, this]
      simp [trunc]
    have i2 : ∀ x y : Int, result (.int x) (.int y) ((x : Rat) - y) = some (.int (x - y)) := by
      intro x y
      simp only [result, Val.ty, Ty.integral, Bool.and_self, if_true]
      rw [← Int.cast_sub, trunc_int]
    rw [meaning, meaningAll, meaningAll, meaning, meaning, meaningAll, meaningAll, mg, meaningAll,
      meaningAll, m2]
    simp only [apply, sequence, Option.bind_some, Option.map_some, meaning, opMeaning, meaningAll, i1,
      num_int, i2]
    congr 2
    unfold sign
    by_cases h1 : eps < a.num - b.num
    · rw [if_pos h1, if_neg (by linarith), if_neg (by rw [abs_le]; intro h; linarith [h.2]),
        if_pos (by linarith)]
      rfl
    · by_cases h2 : eps < b.num - a.num
      · rw [if_neg h1, if_pos h2, if_neg (by rw [abs_le]; intro h; linarith [h.1]),
          if_neg (by linarith), if_pos (by linarith)]
        rfl
      · rw [if_neg h1, if_neg h2, if_pos (by rw [abs_le]; constructor <;> linarith)]
        rfl

/-- `sgn` ignores the policy: its formula compares with a constant, and an expression with a constant
as argument is taken for resolved. -/
theorem sgn_ignores (a : Val) (eps : Rat) (ha : a.ty.arithmetic = true) :
    Evals (.expr (.tuned (.op .sgn) eps) [.val a]) (.int (sign a.num)) := by
  refine tuned_eval (.op .sgn) eps [a] _ (.op .cmp3) [x_, .val (.const 0)] 4 (fun n hn => ?_)
    ⟨trivial, trivial, trivial, trivial⟩
    ⟨⟨rfl, by simp [isArg], rfl⟩, by simp [x_, Takes], trivial, trivial⟩ ?_
  · obtain ⟨m, rfl⟩ : ∃ m, n = m + 4 := ⟨n - 4, by omega⟩
    show resolve (m + 3) (.op .sgn) [a.ty] [eps] = _
    rw [resolve]
    simp only [formula, ha, if_true]
    rfl
  · simp [meaning, meaningAll, apply, sequence, x_, opMeaning, Val.num]

/-- So numbers within the tolerance of zero have a sign. -/
theorem sgn_not_tolerant (a : Val) (eps : Rat) (ha : a.ty.arithmetic = true) (h0 : a.num ≠ 0)
    (_h : |a.num| ≤ eps) : ¬ Evals (.expr (.tuned (.op .sgn) eps) [.val a]) (.int 0) := by
  rintro ⟨n₀, h⟩
  obtain ⟨n₁, h'⟩ := sgn_ignores a eps ha
  have h1 := h (max n₀ n₁) (by omega)
  rw [h' _ (by omega)] at h1
  simp only [Option.some.injEq, Val.int.injEq, sign] at h1
  rcases lt_or_gt_of_ne h0 with hl | hl
  · rw [if_neg (by linarith), if_pos hl] at h1
    cases h1
  · rw [if_pos hl] at h1
    cases h1

/-! ### `inout` -/

/-- Operations with an implementation for scalars, called with an `inout` argument, assign their
meaning. -/
theorem inout_meaning (n : Nat) (o : Op) (vs : List Val)
    (ho : o ∈ [Op.add, .sub, .mul, .div, .neg, .lnot, .land, .lor, .abs, .isEqual]) :
    callInout (n + 2) (.op o) vs = opMeaning o vs := by
  rw [← sem_opMeaning, callInout, resolve_op_succ]
  cases hf : formula o (vs.map Val.ty) with
  | none =>
    simp only [Option.bind_some]
    exact (sem_prim o vs hf).symm
  | some f =>
    have hm := formula_mean o _ vs (.inl rfl) f hf
    have hq := formula_pairs o _ f hf
    simp only [List.mem_cons, List.not_mem_nil, or_false] at ho
    simp only [List.mem_cons, Prod.mk.injEq, List.not_mem_nil, or_false] at hq
    rw [← hm]
    rcases hq with ⟨rfl, rfl⟩ | ⟨rfl, rfl⟩ | ⟨rfl, rfl⟩ | ⟨rfl, rfl⟩ | ⟨rfl, rfl⟩ | ⟨rfl, rfl⟩ |
      ⟨rfl, rfl⟩ | ⟨rfl, rfl⟩ | ⟨rfl, rfl⟩ | ⟨rfl, rfl⟩ | ⟨rfl, rfl⟩ | ⟨rfl, rfl⟩ | ⟨rfl, rfl⟩ |
      ⟨rfl, rfl⟩ | ⟨rfl, rfl⟩ | ⟨rfl, rfl⟩ | ⟨rfl, rfl⟩ | ⟨rfl, rfl⟩ | ⟨rfl, rfl⟩ <;>
    first
      | rfl
      | (simp at ho; done)

/-- Operations given by an expression are not usable with `inout`. -/
theorem inout_squared_fails (n : Nat) (vs : List Val) : callInout n (.op .squared) vs = none := by
  match n with
  | 0 => rfl
  | 1 => rfl
  | 2 => rfl
  | n + 3 => rfl

/-! ### Examples -/

/-- `(x_ + x_ * 3)(5)` is 20. -/
example : eval 10 (.expr (.expr (.op .add) [x_, .expr (.op .mul) [x_, .val (.int 3)]])
    [.val (.int 5)]) = some (.int 20) := by rfl

example : Plain (.expr (.expr (.op .add) [x_, .expr (.op .mul) [x_, .val (.int 3)]])
    [.val (.int 5)]) ∧
    Takes 0 (.expr (.expr (.op .add) [x_, .expr (.op .mul) [x_, .val (.int 3)]])
    [.val (.int 5)]) := by
  simp [Plain, PlainAll, Takes, TakesAll, x_, arity, isOperation, anyOperation, isArg]

/-- `(is_less + is_greater)` is not for booleans only: `(add + subtract)(5, 3)` is 10. -/
example : eval 10 (.expr (.expr (.op .add) [.op .add, .op .sub]) [.val (.int 5), .val (.int 3)]) =
    some (.int 10) := by rfl

/-- Mixed arithmetic of `add` is not supported. -/
example : ∀ n, eval n (.expr (.op .add) [.val (.int 1), .val (.real 2)]) = none := by
  intro n
  cases h : eval n (.expr (.op .add) [.val (.int 1), .val (.real 2)]) with
  | none => rfl
  | some v =>
    have := eval_sound n _ v (by simp [Plain, PlainAll]) h
    simp [meaning, meaningAll, apply, sequence, opMeaning, Val.ty, Ty.integral] at this

/-- `if_else(x_ == 0, 0, 10 / x_)(0)` is 0: the division by zero is not evaluated. -/
example : eval 12 (.expr (.expr (.op .ifElse) [.expr (.op .isEqual) [x_, .val (.int 0)],
    .val (.int 0), .expr (.op .div) [.val (.int 10), x_]]) [.val (.int 0)]) = some (.int 0) := by
  rfl

/-- Numbers within the tolerance, and the sign of one of them. -/
example : (Val.real (1/2)).ty.arithmetic = true ∧ (Val.real (1/2)).num ≠ 0 ∧
    |(Val.real (1/2)).num| ≤ 1 := by
  refine ⟨rfl, by norm_num [Val.num], by norm_num [Val.num, abs_le]⟩

example : callInout 2 (.op .add) [.int 3, .int 4] = some (.int 7) := by rfl

end Actl.Expr
