import Verif.Model.PointOps
import Mathlib.Algebra.Field.Basic
import Mathlib.Algebra.Order.Field.Rat
import Mathlib.Data.Fin.VecNotation
import Mathlib.Data.Fintype.Pi
import Mathlib.Tactic.Ring
import Mathlib.Tactic.FieldSimp

/-!
# C121: operators of points that change a point in place
-/

namespace Actl.Geo

variable {F : Type*} {n : Nat}

/-- The loop over the coordinates, if the value of each step depends on the coordinate itself and on what `g` reads. -/
theorem applyInPlace_inv (step : Vec F n → Fin n → F) (l out : Vec F n)
    (h : ∀ (v : Vec F n) (i : Fin n), (∀ j, j < i → v j = out j) → (∀ j, i ≤ j → v j = l j) → step v i = out i) :
    applyInPlace step l = out := by
  have key : ∀ (done todo : List (Fin n)), done ++ todo = List.finRange n → ∀ v : Vec F n,
      (∀ j ∈ done, v j = out j) → (∀ j ∈ todo, v j = l j) →
      todo.foldl (fun v i => Function.update v i (step v i)) v = out := by
    intro done todo
    induction todo generalizing done with
    | nil =>
      intro e v hd _
      funext j
      exact hd j (by rw [List.append_nil] at e; rw [e]; exact List.mem_finRange j)
    | cons i rest ih =>
      intro e v hd ht
      have hsort : (done ++ i :: rest).Pairwise (· < ·) := by rw [e]; exact List.pairwise_lt_finRange n
      rw [List.pairwise_append] at hsort
      obtain ⟨-, s2, s3⟩ := hsort
      rw [List.pairwise_cons] at s2
      rw [List.foldl_cons]
      have mem : ∀ j, j ∈ done ∨ j = i ∨ j ∈ rest := by
        intro j
        have : j ∈ done ++ i :: rest := by rw [e]; exact List.mem_finRange j
        simpa using this
      have hs : step v i = out i := by
        apply h
        · intro j hj
          rcases mem j with m | m | m
          · exact hd j m
          · exact absurd (m ▸ hj) (lt_irrefl _)
          · exact absurd (hj.trans (s2.1 j m)) (lt_irrefl _)
        · intro j hj
          rcases mem j with m | m | m
          · exact absurd (lt_of_le_of_lt hj (s3 j m i (by simp))) (lt_irrefl _)
          · exact ht j (by simp [m])
          · exact ht j (by simp [m])
      refine ih (done ++ [i]) (by simpa using e) _ ?_ ?_
      · intro j hj
        rw [List.mem_append, List.mem_singleton] at hj
        by_cases c : j = i
        · rw [c, Function.update_self, hs]
        · rw [Function.update_of_ne c]
          exact hd j (hj.resolve_right c)
      · intro j hj
        rw [Function.update_of_ne (s2.1 j hj).ne']
        exact ht j (by simp [hj])
  exact key [] (List.finRange n) rfl l (by simp) (fun j _ => rfl)

/-- **C121.** `l += r` adds the value `r` had, also if `r` is the point itself. -/
theorem addAssign_eq [Add F] (l : Vec F n) (r : PointArg F n) : addAssign l r = fun i => l i + r.read l i := by
  apply applyInPlace_inv
  intro v i _ h2
  rw [h2 i le_rfl]
  cases r with
  | other r => rfl
  | self => simp only [PointArg.read]; rw [h2 i le_rfl]

/-- **C121.** `l -= r` subtracts the value `r` had, also if `r` is the point itself. -/
theorem subAssign_eq [Sub F] (l : Vec F n) (r : PointArg F n) : subAssign l r = fun i => l i - r.read l i := by
  apply applyInPlace_inv
  intro v i _ h2
  rw [h2 i le_rfl]
  cases r with
  | other r => rfl
  | self => simp only [PointArg.read]; rw [h2 i le_rfl]

/-- What `l *= f` gives: a factor that is the coordinate `k` of the point is squared for the coordinates behind it. -/
theorem mulAssign_eq [Mul F] (l : Vec F n) (f : ScalarArg F n) :
    mulAssign l f = fun i => match f with
      | .value x => l i * x
      | .coordinate k => if i ≤ k then l i * l k else l i * (l k * l k) := by
  apply applyInPlace_inv
  intro v i h1 h2
  rw [h2 i le_rfl]
  cases f with
  | value x => rfl
  | coordinate k =>
    simp only [ScalarArg.read] at h1 ⊢
    by_cases c : i ≤ k
    · rw [if_pos c, h2 k c]
    · rw [if_neg c, h1 k (not_le.1 c), if_pos le_rfl]

/-- **C121.** `l *= f` multiplies by the value `f` had if `f` is not a coordinate of `l`; if it is the coordinate `k`, exactly
if that coordinate is 0 or 1 or all coordinates behind it are 0. -/
theorem mulAssign_iff_partial [Field F] (l : Vec F n) (f : ScalarArg F n) :
    (mulAssign l f = fun i => l i * f.read l) ↔
      ∀ k, f = .coordinate k → l k = 0 ∨ l k = 1 ∨ ∀ i, k < i → l i = 0 := by
  rw [mulAssign_eq]
  cases f with
  | value x => simp [ScalarArg.read]
  | coordinate k =>
    simp only [ScalarArg.read, ScalarArg.coordinate.injEq, forall_eq']
    rw [funext_iff]
    constructor
    · intro h
      by_cases c : l k = 0 ∨ l k = 1
      · tauto
      · right; right
        intro i hi
        have := h i
        rw [if_neg (not_le.2 hi), ← sub_eq_zero, show l i * (l k * l k) - l i * l k = l i * (l k * (l k - 1)) by ring] at this
        rcases mul_eq_zero.1 this with h | h
        · exact h
        · rcases mul_eq_zero.1 h with h | h
          · exact absurd (.inl h) c
          · exact absurd (.inr (sub_eq_zero.1 h)) c
    · intro h i
      by_cases c : i ≤ k
      · rw [if_pos c]
      · rw [if_neg c]
        rcases h with h | h | h
        · rw [h]; ring
        · rw [h]; ring
        · rw [h i (not_le.1 c)]; ring

/-- The loop of `/=` does not fail if the factor never gets 0. -/
theorem foldlM_some {α β : Type*} (g : β → α → Option β) (g' : β → α → β) (P : β → Prop) :
    ∀ (xs : List α) (v : β), P v → (∀ v, P v → ∀ i ∈ xs, g v i = some (g' v i) ∧ P (g' v i)) →
      xs.foldlM g v = some (xs.foldl g' v)
  | [], v, _, _ => rfl
  | x :: xs, v, hv, h => by
    obtain ⟨h1, h2⟩ := h v hv x (by simp)
    rw [List.foldlM_cons, h1]
    exact foldlM_some g g' P xs _ h2 fun v hv i hi => h v hv i (by simp [hi])

/-- **C121.** `l /= f` divides by zero exactly if `f` is 0 (and the point has a coordinate). -/
theorem divAssign_zero [Field F] [DecidableEq F] (l : Vec F (n + 1)) (f : ScalarArg F (n + 1)) :
    divAssign l f = none ↔ f.read l = 0 := by
  constructor
  · intro h
    by_contra hf
    unfold divAssign at h
    cases f with
    | value x =>
      rw [foldlM_some _ (fun v i => Function.update v i (v i / x)) (fun _ => True) _ _ trivial] at h
      · exact absurd h (by simp)
      · intro v _ i _
        exact ⟨if_neg hf, trivial⟩
    | coordinate k =>
      rw [foldlM_some _ (fun v i => Function.update v i (v i / v k)) (fun v => v k ≠ 0) _ _ hf] at h
      · exact absurd h (by simp)
      · intro v hv i _
        refine ⟨if_neg hv, ?_⟩
        by_cases c : k = i
        · subst c; rw [Function.update_self, div_self hv]; exact one_ne_zero
        · rw [Function.update_of_ne c]; exact hv
  · intro h
    unfold divAssign
    rw [List.finRange_succ, List.foldlM_cons, if_pos h]
    rfl

/-- What `l /= f` gives: if the factor is the coordinate `k` of the point, the coordinates behind it are not changed. -/
theorem divAssign_eq [Field F] [DecidableEq F] (l : Vec F n) (f : ScalarArg F n) (hf : f.read l ≠ 0) :
    divAssign l f = some fun i => match f with
      | .value x => l i / x
      | .coordinate k => if i ≤ k then l i / l k else l i := by
  unfold divAssign
  cases f with
  | value x =>
    rw [foldlM_some _ (fun v i => Function.update v i (v i / x)) (fun _ => True) _ _ trivial]
    · congr 1
      exact applyInPlace_inv (fun v i => v i / x) l _ fun v i _ h2 => by rw [h2 i le_rfl]
    · intro v _ i _
      exact ⟨if_neg hf, trivial⟩
  | coordinate k =>
    rw [foldlM_some _ (fun v i => Function.update v i (v i / v k)) (fun v => v k ≠ 0) _ _ hf]
    · congr 1
      refine applyInPlace_inv (fun v i => v i / v k) l (fun i => if i ≤ k then l i / l k else l i) fun v i h1 h2 => ?_
      have hf : l k ≠ 0 := hf
      rw [h2 i le_rfl]
      by_cases c : i ≤ k
      · rw [if_pos c, h2 k c]
      · rw [if_neg c, h1 k (not_le.1 c), if_pos le_rfl, div_self hf, div_one]
    · intro v hv i _
      refine ⟨if_neg hv, ?_⟩
      by_cases c : k = i
      · subst c; rw [Function.update_self, div_self hv]; exact one_ne_zero
      · rw [Function.update_of_ne c]; exact hv

/-- **C121.** For a factor other than 0, `l /= f` divides by the value `f` had if `f` is not a coordinate of `l`; if it is the
coordinate `k`, exactly if that coordinate is 1 or all coordinates behind it are 0. -/
theorem divAssign_iff_partial [Field F] [DecidableEq F] (l : Vec F n) (f : ScalarArg F n) (hf : f.read l ≠ 0) :
    (divAssign l f = some fun i => l i / f.read l) ↔
      ∀ k, f = .coordinate k → l k = 1 ∨ ∀ i, k < i → l i = 0 := by
  rw [divAssign_eq l f hf, Option.some.injEq]
  cases f with
  | value x => simp [ScalarArg.read]
  | coordinate k =>
    simp only [ScalarArg.read, ScalarArg.coordinate.injEq, forall_eq'] at hf ⊢
    rw [funext_iff]
    constructor
    · intro h
      by_cases c : l k = 1
      · exact .inl c
      · right
        intro i hi
        have := h i
        rw [if_neg (not_le.2 hi), eq_div_iff hf, ← sub_eq_zero, show l i * l k - l i = l i * (l k - 1) by ring] at this
        rcases mul_eq_zero.1 this with h | h
        · exact h
        · exact absurd (sub_eq_zero.1 h) c
    · intro h i
      by_cases c : i ≤ k
      · rw [if_pos c]
      · rw [if_neg c]
        rcases h with h | h
        · rw [h, div_one]
        · rw [h i (not_le.1 c), zero_div]

/-- **C121.** `l / f` into a new point divides by `f`, whatever `f` refers to, and fails exactly for 0. -/
theorem divPoint_eq [Field F] [DecidableEq F] (l : Vec F n) (f : F) :
    (f = 0 → divPoint l f = none) ∧ (f ≠ 0 → ∃ q, divPoint l f = some q ∧ ∀ i, q i * f = l i) := by
  unfold divPoint
  refine ⟨fun h => if_pos h, fun h => ⟨_, if_neg h, fun i => div_mul_cancel₀ _ h⟩⟩

/-- **C121.** `swap` exchanges two points, and leaves a point swapped with itself as it is. -/
theorem swapPoints_eq (l r : Vec F n) : swapPoints l r = (r, l) ∧ swapSelf l = l := by
  constructor
  · have key : ∀ (xs : List (Fin n)), xs.Nodup → ∀ v : Vec F n × Vec F n,
        xs.foldl (fun (v : Vec F n × Vec F n) i => (Function.update v.1 i (v.2 i), Function.update v.2 i (v.1 i))) v =
          (fun i => if i ∈ xs then v.2 i else v.1 i, fun i => if i ∈ xs then v.1 i else v.2 i) := by
      intro xs
      induction xs with
      | nil => intro _ v; simp
      | cons x xs ih =>
        intro hn v
        rw [List.nodup_cons] at hn
        rw [List.foldl_cons, ih hn.2]
        congr 1 <;> funext i <;> by_cases c : i = x
        · subst c; simp [hn.1]
        · simp [c]
        · subst c; simp [hn.1]
        · simp [c]
    rw [swapPoints, key _ (List.nodup_finRange n)]
    simp
  · exact applyInPlace_inv _ _ _ fun v i _ h2 => h2 i le_rfl

/-- Normalising a point by its own first coordinate: (2, 4) / 2 becomes (1, 4) and (2, 3) * 2 becomes (4, 12). -/
example : divAssign (![2, 4] : Vec ℚ 2) (.coordinate 0) = some ![1, 4] ∧
    mulAssign (![2, 3] : Vec ℚ 2) (.coordinate 0) = ![4, 12] ∧
    mulAssign (![2, 3] : Vec ℚ 2) (.value 2) = ![4, 6] ∧
    addAssign (![2, 3] : Vec ℚ 2) .self = ![4, 6] ∧ subAssign (![2, 3] : Vec ℚ 2) .self = ![0, 0] := by
  decide +kernel

/-- A factor that is the last coordinate does no harm. -/
example : mulAssign (![2, 3] : Vec ℚ 2) (.coordinate 1) = ![6, 9] ∧
    ScalarArg.read (.coordinate 1) (![2, 3] : Vec ℚ 2) ≠ 0 := by decide +kernel

end Actl.Geo
