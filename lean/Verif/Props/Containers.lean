import Verif.Model.Containers
import Mathlib.Data.List.Basic

/-!
C28 (queues), C29 (bounded vector), C32 (semi-static arrays).
-/

namespace Actl.Containers

variable {α : Type}

/-- Simulation: if related states make the same step whenever the specification is defined, then
all the outputs agree. -/
theorem run_refines {σ τ ω o : Type} (step : σ → ω → Option (o × σ)) (spec : τ → ω → Option (o × τ))
    (R : σ → τ → Prop) (Q : ω → Prop)
    (h : ∀ s t op x t', R s t → Q op → spec t op = some (x, t') →
      ∃ s', step s op = some (x, s') ∧ R s' t')
    (ops : List ω) (s : σ) (t : τ) (xs : List o) (hR : R s t) (hQ : ∀ op ∈ ops, Q op)
    (hs : run spec t ops = some xs) : run step s ops = some xs := by
  induction ops generalizing s t xs with
  | nil => simpa [run] using hs
  | cons op ops ih =>
    simp only [run] at hs ⊢
    cases h1 : spec t op with
    | none => rw [h1] at hs; simp at hs
    | some r =>
      obtain ⟨x, t'⟩ := r
      rw [h1] at hs
      simp only at hs
      obtain ⟨s', h2, h3⟩ := h s t op x t' hR (hQ op (by simp)) h1
      rw [h2]
      simp only
      cases h4 : run spec t' ops with
      | none => rw [h4] at hs; simp at hs
      | some ys =>
        rw [h4] at hs
        rw [ih s' t' ys h3 (fun op hop => hQ op (List.mem_cons_of_mem _ hop)) h4]
        exact hs

/-! ### Two stacks -/

theorem moveAll_eq (a b : List α) : moveAll a b = a.reverse ++ b := by
  induction a generalizing b with
  | nil => rfl
  | cons x a ih => simp [moveAll, ih]

theorem fill_spec (q : TwoStacks α) :
    q.fill.outS ++ q.fill.inS.reverse = q.outS ++ q.inS.reverse ∧
    (q.fill.outS = [] → q.fill.inS = []) := by
  unfold TwoStacks.fill
  by_cases h : q.outS = []
  · simp [h, moveAll_eq]
  · have : q.outS.isEmpty = false := by simpa using h
    simp [this, h]

/-- **C28** The queue made of two stacks gives, on every history of `push`, `pop`, `top`, `size`,
`empty` that does not look at or pop an empty queue, exactly the outputs of a FIFO queue. -/
theorem twoStacks_fifo (ops : List (QOp α)) (hops : ∀ op ∈ ops, op ≠ .back) (outs : List (Out α))
    (h : run qSpec [] ops = some outs) : run TwoStacks.step ⟨[], []⟩ ops = some outs := by
  refine run_refines TwoStacks.step qSpec (fun s t => t = s.outS ++ s.inS.reverse) (fun op => op ≠ .back)
    ?_ ops ⟨[], []⟩ [] outs rfl hops h
  intro s t op x t' hR hb hs
  have hfill := fill_spec s
  rw [← hR] at hfill
  cases op with
  | push y =>
    simp only [qSpec, Option.some.injEq, Prod.mk.injEq] at hs
    refine ⟨_, by rw [← hs.1]; rfl, ?_⟩
    rw [← hs.2, hR]; simp
  | pop =>
    cases t with
    | nil => simp [qSpec] at hs
    | cons y t =>
      simp only [qSpec, Option.some.injEq, Prod.mk.injEq] at hs
      cases ho : s.fill.outS with
      | nil => have h1 := hfill.1; rw [ho, hfill.2 ho] at h1; simp at h1
      | cons z out =>
        rw [ho] at hfill
        simp only [List.cons_append, List.cons.injEq] at hfill
        refine ⟨_, by simp only [TwoStacks.step, ho]; rw [← hs.1], ?_⟩
        rw [← hs.2]; exact hfill.1.2.symm
  | front =>
    cases t with
    | nil => simp [qSpec] at hs
    | cons y t =>
      simp only [qSpec, Option.some.injEq, Prod.mk.injEq] at hs
      cases ho : s.fill.outS with
      | nil => have h1 := hfill.1; rw [ho, hfill.2 ho] at h1; simp at h1
      | cons z out =>
        have h1 := hfill.1
        rw [ho] at h1
        simp only [List.cons_append, List.cons.injEq] at h1
        refine ⟨s.fill, by simp only [TwoStacks.step, ho]; rw [← hs.1, h1.1], ?_⟩
        rw [← hs.2, hfill.1]
  | back => exact absurd rfl hb
  | size =>
    simp only [qSpec, Option.some.injEq, Prod.mk.injEq] at hs
    refine ⟨s, ?_, by rw [← hs.2]; exact hR⟩
    simp only [TwoStacks.step, ← hs.1, hR, List.length_append, List.length_reverse, Nat.add_comm]
  | empty =>
    simp only [qSpec, Option.some.injEq, Prod.mk.injEq] at hs
    refine ⟨s, ?_, by rw [← hs.2]; exact hR⟩
    simp only [TwoStacks.step, ← hs.1, hR]
    cases s.inS <;> cases s.outS <;> simp

example : run TwoStacks.step ⟨[], []⟩
    [.push 1, .push 2, .front, .push 3, .pop, .front, .size, .pop, .pop, .empty] =
    some [.unit, .unit, .val 1, .unit, .unit, .val 2, .nat 2, .unit, .unit, .bool true] := by decide

/-! ### Vector -/

/-- **C28** The same for the queue on a vector, which also has `back`. -/
theorem vecQueue_fifo (ops : List (QOp α)) (outs : List (Out α)) (h : run qSpec [] ops = some outs) :
    run VecQueue.step ⟨[], 0⟩ ops = some outs := by
  refine run_refines VecQueue.step qSpec (fun s t => s.begin ≤ s.vec.length ∧ t = s.vec.drop s.begin)
    (fun _ => True) ?_ ops ⟨[], 0⟩ [] outs ⟨Nat.le_refl _, rfl⟩ (fun _ _ => trivial) h
  intro s t op x t' hR _ hs
  obtain ⟨hle, hR⟩ := hR
  have hlen : t.length = s.vec.length - s.begin := by rw [hR]; simp
  cases op with
  | push y =>
    simp only [qSpec, Option.some.injEq, Prod.mk.injEq] at hs
    refine ⟨_, by rw [← hs.1]; rfl, by simp; omega, ?_⟩
    rw [← hs.2, hR]
    simp only
    rw [List.drop_append_of_le_length hle]
  | pop =>
    cases t with
    | nil => simp [qSpec] at hs
    | cons y t =>
      simp only [qSpec, Option.some.injEq, Prod.mk.injEq] at hs
      simp only [List.length_cons] at hlen
      refine ⟨_, by rw [← hs.1]; rfl, by simp only; omega, ?_⟩
      rw [← hs.2]
      simp only
      rw [← List.drop_drop, ← hR]
      rfl
  | front =>
    cases t with
    | nil => simp [qSpec] at hs
    | cons y t =>
      simp only [qSpec, Option.some.injEq, Prod.mk.injEq] at hs
      have h0 : s.vec[s.begin]? = some y := by
        have := congrArg (fun l => l[0]?) hR
        simpa using this.symm
      refine ⟨s, by simp only [VecQueue.step, h0]; rw [← hs.1], hle, by rw [← hs.2]; exact hR⟩
  | back =>
    simp only [qSpec] at hs
    cases hl : t.getLast? with
    | none => rw [hl] at hs; simp at hs
    | some y =>
      rw [hl] at hs
      simp only [Option.some.injEq, Prod.mk.injEq] at hs
      have hne : t ≠ [] := by rintro rfl; simp at hl
      have hpos := List.length_pos_iff.mpr hne
      have h0 : s.vec.getLast? = some y := by
        rw [hR, List.getLast?_drop, if_neg (by omega)] at hl
        exact hl
      refine ⟨s, by simp only [VecQueue.step, h0]; rw [← hs.1], hle, by rw [← hs.2]; exact hR⟩
  | size =>
    simp only [qSpec, Option.some.injEq, Prod.mk.injEq] at hs
    refine ⟨s, ?_, hle, by rw [← hs.2]; exact hR⟩
    simp only [VecQueue.step, if_pos hle, ← hs.1, hlen]
  | empty =>
    simp only [qSpec, Option.some.injEq, Prod.mk.injEq] at hs
    refine ⟨s, ?_, hle, by rw [← hs.2]; exact hR⟩
    simp only [VecQueue.step, ← hs.1]
    congr 3
    rw [Bool.eq_iff_iff, beq_iff_eq, List.isEmpty_iff, ← List.length_eq_zero_iff, hlen]
    omega

example : run VecQueue.step ⟨[], 0⟩
    [.push 1, .push 2, .front, .back, .pop, .push 3, .front, .size, .pop, .pop, .empty] =
    some [.unit, .unit, .val 1, .val 2, .unit, .unit, .val 2, .nat 2, .unit, .unit, .bool true] := by
  decide

/-- Memory held: the vector never releases popped elements. -/
theorem vecQueue_keeps (q q' : VecQueue α) (o : Out α) (op : QOp α) (h : q.step op = some (o, q')) :
    q.vec <+: q'.vec := by
  have hp : q.vec <+: q.vec := List.prefix_refl _
  cases op with
  | push x =>
    simp only [VecQueue.step, Option.some.injEq, Prod.mk.injEq] at h
    rw [← h.2]; exact List.prefix_append _ _
  | pop => simp only [VecQueue.step, Option.some.injEq, Prod.mk.injEq] at h; rw [← h.2]; exact hp
  | front =>
    simp only [VecQueue.step] at h
    split at h <;> simp at h
    rw [← h.2]; exact hp
  | back =>
    simp only [VecQueue.step] at h
    split at h <;> simp at h
    rw [← h.2]; exact hp
  | size => simp only [VecQueue.step, Option.some.injEq, Prod.mk.injEq] at h; rw [← h.2]; exact hp
  | empty => simp only [VecQueue.step, Option.some.injEq, Prod.mk.injEq] at h; rw [← h.2]; exact hp

/-! ### Bounded vector -/

/-- **C29** A fixed array of any capacity and any initial contents behaves like a vector on every
history that stays within the capacity and the current elements. -/
theorem arrVec_vector (arr : List α) (ops : List (VOp α)) (outs : List (Out α))
    (h : run (vSpec arr.length) [] ops = some outs) : run ArrVec.step ⟨arr, 0⟩ ops = some outs := by
  refine run_refines ArrVec.step (vSpec arr.length)
    (fun s t => s.arr.length = arr.length ∧ s.end ≤ s.arr.length ∧ t = s.arr.take s.end)
    (fun _ => True) ?_ ops ⟨arr, 0⟩ [] outs ⟨rfl, Nat.zero_le _, rfl⟩ (fun _ _ => trivial) h
  intro s t op x t' hR _ hs
  obtain ⟨hcap, hle, hR⟩ := hR
  have hlen : t.length = s.end := by rw [hR]; simp; omega
  cases op with
  | push y =>
    simp only [vSpec] at hs
    split at hs
    · rename_i hlt
      simp only [Option.some.injEq, Prod.mk.injEq] at hs
      have hlt' : s.end < s.arr.length := by omega
      refine ⟨⟨s.arr.set s.end y, s.end + 1⟩, ?_, by simpa using hcap,
        by simp only [List.length_set]; omega, ?_⟩
      · simp only [ArrVec.step, if_pos hlt', ← hs.1]
      · rw [← hs.2, hR]
        simp only
        rw [List.set_eq_take_append_cons_drop, if_pos hlt', List.take_append,
          List.take_of_length_le (l := s.arr.take s.end) (by simp only [List.length_take]; omega)]
        simp [Nat.min_eq_left hle]
    · simp at hs
  | pop =>
    simp only [vSpec] at hs
    split at hs
    · simp at hs
    · rename_i hne
      simp only [Option.some.injEq, Prod.mk.injEq] at hs
      have hpos := List.length_pos_iff.mpr hne
      refine ⟨{ s with «end» := s.end - 1 }, ?_, hcap, by simp only; omega, ?_⟩
      · simp only [ArrVec.step]
        rw [if_neg (by omega), ← hs.1]
      · rw [← hs.2, hR]
        rcases Nat.lt_or_ge s.end s.arr.length with hl | hl
        · rw [List.dropLast_take hl]
        · rw [List.take_of_length_le hl, List.dropLast_eq_take, Nat.le_antisymm hle hl]
  | clear =>
    simp only [vSpec, Option.some.injEq, Prod.mk.injEq] at hs
    exact ⟨{ s with «end» := 0 }, by rw [← hs.1]; rfl, hcap, Nat.zero_le _, by rw [← hs.2]; simp⟩
  | «at» i =>
    simp only [vSpec] at hs
    cases hi : t[i]? with
    | none => rw [hi] at hs; simp at hs
    | some y =>
      rw [hi] at hs
      simp only [Option.some.injEq, Prod.mk.injEq] at hs
      have h0 : s.arr[i]? = some y := by
        rw [hR, List.getElem?_take] at hi
        split at hi
        · exact hi
        · simp at hi
      exact ⟨s, by simp only [ArrVec.step, h0]; rw [← hs.1], hcap, hle, by rw [← hs.2]; exact hR⟩
  | set i y =>
    simp only [vSpec] at hs
    split at hs
    · rename_i hlt
      simp only [Option.some.injEq, Prod.mk.injEq] at hs
      refine ⟨{ s with arr := s.arr.set i y }, ?_, by simpa using hcap, by simpa using hle, ?_⟩
      · simp only [ArrVec.step]
        rw [if_pos (by omega), ← hs.1]
      · rw [← hs.2, hR, List.take_set]
    · simp at hs
  | front =>
    simp only [vSpec] at hs
    cases hi : t.head? with
    | none => rw [hi] at hs; simp at hs
    | some y =>
      rw [hi] at hs
      simp only [Option.some.injEq, Prod.mk.injEq] at hs
      have h0 : s.arr[0]? = some y := by
        rw [List.head?_eq_getElem?, hR, List.getElem?_take] at hi
        split at hi
        · exact hi
        · simp at hi
      exact ⟨s, by simp only [ArrVec.step, h0]; rw [← hs.1], hcap, hle, by rw [← hs.2]; exact hR⟩
  | back =>
    simp only [vSpec] at hs
    cases hi : t.getLast? with
    | none => rw [hi] at hs; simp at hs
    | some y =>
      rw [hi] at hs
      simp only [Option.some.injEq, Prod.mk.injEq] at hs
      have hne : t ≠ [] := by rintro rfl; simp at hi
      have hpos := List.length_pos_iff.mpr hne
      have h0 : s.arr[s.end - 1]? = some y := by
        rw [List.getLast?_eq_getElem?, hlen, hR, List.getElem?_take, if_pos (by omega)] at hi
        exact hi
      refine ⟨s, ?_, hcap, hle, by rw [← hs.2]; exact hR⟩
      simp only [ArrVec.step]
      rw [if_neg (by omega), h0]
      simp only [← hs.1]
  | size =>
    simp only [vSpec, Option.some.injEq, Prod.mk.injEq] at hs
    exact ⟨s, by simp only [ArrVec.step, ← hs.1, hlen], hcap, hle, by rw [← hs.2]; exact hR⟩
  | empty =>
    simp only [vSpec, Option.some.injEq, Prod.mk.injEq] at hs
    refine ⟨s, ?_, hcap, hle, by rw [← hs.2]; exact hR⟩
    simp only [ArrVec.step, ← hs.1]
    congr 3
    rw [Bool.eq_iff_iff, beq_iff_eq, List.isEmpty_iff, ← List.length_eq_zero_iff, hlen]
  | elements =>
    simp only [vSpec, Option.some.injEq, Prod.mk.injEq] at hs
    exact ⟨s, by simp only [ArrVec.step, ← hs.1, hR], hcap, hle, by rw [← hs.2]; exact hR⟩

example : run ArrVec.step ⟨[0, 0, 0], 0⟩
    [.push 1, .push 2, .push 3, .set 0 9, .pop, .back, .push 4, .elements, .clear, .empty] =
    some [.unit, .unit, .unit, .unit, .unit, .val 2, .unit, .vals [9, 2, 4], .unit, .bool true] := by
  decide

/-- **C29** A push on a full array writes out of its bounds. -/
theorem arrVec_overflow (arr : List α) (x : α) : ArrVec.step ⟨arr, arr.length⟩ (.push x) = none := by
  simp [ArrVec.step]

/-- **C29** (negation) A copy of any `array_as_vector`, even an empty one, is unusable: its size is
undefined. -/
theorem arrObj_copy_ub (v : ArrObj α) (h : v.owner = v.id) (newId : Nat) (hn : newId ≠ v.id) :
    (v.copy newId).size = none := by
  unfold ArrObj.copy ArrObj.size
  simp only
  rw [if_neg]
  rw [h]; exact fun e => hn e.symm

example : ((⟨0, [1, 2], 0, 1⟩ : ArrObj Nat).copy 1).size = none := by decide

/-! ### Semi-static arrays -/

section SemiStatic

variable [DecidableEq α]

theorem dynamicIndex_eq (dyn : α) (statics : List α) (i : Nat) :
    dynamicIndex dyn statics i = (statics.take i).count dyn := by
  unfold dynamicIndex
  induction statics.take i with
  | nil => rfl
  | cons s l ih =>
    rw [List.map_cons, List.sum_cons, ih, List.count_cons]
    by_cases h : s = dyn
    · simp [h, Nat.add_comm]
    · simp [h]

theorem dynamicIndex_lt (dyn : α) (statics : List α) {i j : Nat} (hi : statics[i]? = some dyn) (hij : i < j) :
    dynamicIndex dyn statics i < dynamicIndex dyn statics j := by
  have hlt : i < statics.length := by
    rcases Nat.lt_or_ge i statics.length with h | h
    · exact h
    · rw [List.getElem?_eq_none h] at hi; simp at hi
  rw [dynamicIndex_eq, dynamicIndex_eq]
  have h1 : (statics.take (i + 1)).count dyn = (statics.take i).count dyn + 1 := by
    rw [List.take_succ, hi, List.count_append]; simp
  have h2 : (statics.take (i + 1)).count dyn ≤ (statics.take j).count dyn := by
    have : statics.take (i + 1) <+: statics.take j := List.take_prefix_take_left (by omega)
    exact this.sublist.count_le dyn
  omega

theorem dynamicIndex_bound (dyn : α) (statics : List α) {i : Nat} (hi : statics[i]? = some dyn) :
    dynamicIndex dyn statics i < statics.count dyn := by
  have hlt : i < statics.length := by
    rcases Nat.lt_or_ge i statics.length with h | h
    · exact h
    · rw [List.getElem?_eq_none h] at hi; simp at hi
  have := dynamicIndex_lt dyn statics hi hlt
  rw [dynamicIndex_eq dyn statics statics.length, List.take_length] at this
  exact this

/-- **C32** Distinct dynamic positions use distinct slots, in increasing order, and every slot is
used. -/
theorem slots_bijective (dyn : α) (statics : List α) :
    (∀ i j, statics[i]? = some dyn → statics[j]? = some dyn →
      (dynamicIndex dyn statics i < dynamicIndex dyn statics j ↔ i < j)) ∧
    (∀ i, statics[i]? = some dyn → dynamicIndex dyn statics i < statics.count dyn) ∧
    (∀ k, k < statics.count dyn → ∃ i, statics[i]? = some dyn ∧ dynamicIndex dyn statics i = k) := by
  refine ⟨fun i j hi hj => ⟨fun h => ?_, dynamicIndex_lt dyn statics hi⟩,
    fun i hi => dynamicIndex_bound dyn statics hi, ?_⟩
  · rcases Nat.lt_trichotomy i j with h' | h' | h'
    · exact h'
    · subst h'; omega
    · have := dynamicIndex_lt dyn statics hj h'; omega
  · intro k hk
    simp only [dynamicIndex_eq]
    induction statics generalizing k with
    | nil => simp at hk
    | cons s l ih =>
      by_cases hs : s = dyn
      · cases k with
        | zero => exact ⟨0, by simp [hs], by simp⟩
        | succ k =>
          rw [List.count_cons] at hk
          simp [hs] at hk
          obtain ⟨i, h1, h2⟩ := ih k hk
          exact ⟨i + 1, by simpa using h1, by simp [List.count_cons, hs, h2]⟩
      · rw [List.count_cons] at hk
        simp [hs] at hk
        obtain ⟨i, h1, h2⟩ := ih k hk
        exact ⟨i + 1, by simpa using h1, by simp [List.count_cons, hs, h2]⟩

theorem assignAll_spec (dyn : α) (statics : List α) (xs : List α) (i : Nat) (d : List α)
    (hd : d.length = statics.count dyn) :
    (assignAll dyn statics i xs d).length = d.length ∧
    ∀ j, statics[j]? = some dyn →
      (assignAll dyn statics i xs d)[dynamicIndex dyn statics j]? =
        if i ≤ j ∧ j < i + xs.length then xs[j - i]? else d[dynamicIndex dyn statics j]? := by
  induction xs generalizing i d with
  | nil => exact ⟨rfl, fun j _ => by rw [if_neg (by simp)]; rfl⟩
  | cons x xs ih =>
    simp only [assignAll]
    have hd' : (if statics[i]? = some dyn then d.set (dynamicIndex dyn statics i) x else d).length =
        statics.count dyn := by split <;> simp [hd]
    obtain ⟨h1, h2⟩ := ih (i + 1) _ hd'
    refine ⟨by rw [h1, hd', hd], fun j hj => ?_⟩
    rw [h2 j hj]
    have hb := dynamicIndex_bound dyn statics hj
    simp only [List.length_cons]
    by_cases hji : j = i
    · subst hji
      rw [if_neg (by omega), if_pos hj, if_pos ⟨Nat.le_refl _, by omega⟩]
      simp [hd, hb]
    · by_cases hr : i + 1 ≤ j ∧ j < i + 1 + xs.length
      · rw [if_pos hr, if_pos (by omega), show j - i = (j - (i + 1)) + 1 by omega, List.getElem?_cons_succ]
      · have hr' : ¬(i ≤ j ∧ j < i + (xs.length + 1)) := by omega
        rw [if_neg hr, if_neg hr']
        split
        · rename_i hsi
          rw [List.getElem?_set_ne]
          intro he
          rcases Nat.lt_trichotomy i j with h' | h' | h'
          · have := dynamicIndex_lt dyn statics hsi h'; omega
          · exact hji h'.symm
          · have := dynamicIndex_lt dyn statics hj h'; omega
        · rfl

/-- **C32** Constructed from all the values `xs` (which agree with the compile-time ones where there
are any, as the types of the parameters enforce), the array holds exactly `xs`. -/
theorem semiInit_correct (dyn zero : α) (statics xs : List α) (hl : xs.length = statics.length)
    (hx : ∀ (i : Nat) s, statics[i]? = some s → s ≠ dyn → xs[i]? = some s) (i : Nat) :
    semiAt dyn statics (semiInit dyn zero statics xs) i = xs[i]? := by
  unfold semiAt
  cases hs : statics[i]? with
  | none =>
    have : statics.length ≤ i := by simpa using hs
    have hx : xs[i]? = none := List.getElem?_eq_none (by omega)
    rw [hx]
  | some s =>
    simp only
    by_cases h : s = dyn
    · subst h
      rw [if_neg (by simp)]
      unfold semiInit
      have hi : i < statics.length := by
        rcases Nat.lt_or_ge i statics.length with h | h
        · exact h
        · rw [List.getElem?_eq_none h] at hs; simp at hs
      rw [(assignAll_spec s statics xs 0 _ (by simp)).2 i hs, if_pos (by omega)]
      simp
    · rw [if_pos h, hx i s hs h]

/-- **C32** From the run-time values alone, the `k`-th dynamic position holds the `k`-th of them, the
other positions the compile-time values. -/
theorem semiAt_correct (dyn : α) (statics ds : List α) (hd : ds.length = statics.count dyn) (i : Nat) :
    (∀ s, statics[i]? = some s → s ≠ dyn → semiAt dyn statics ds i = some s) ∧
    (statics[i]? = some dyn → ∃ h : (statics.take i).count dyn < ds.length,
      semiAt dyn statics ds i = some ds[(statics.take i).count dyn]) := by
  refine ⟨fun s hs h => by simp [semiAt, hs, h], fun hs => ?_⟩
  have hb := dynamicIndex_bound dyn statics hs
  rw [dynamicIndex_eq] at hb
  exact ⟨by omega, by simp [semiAt, hs, dynamicIndex_eq, hd, hb]⟩

/-- **C32** Assigning a dynamic position changes that position only. -/
theorem semiSet_correct (dyn : α) (statics ds : List α) (hd : ds.length = statics.count dyn) (i : Nat) (x : α)
    (hi : statics[i]? = some dyn) : ∃ ds', semiSet dyn statics ds i x = some ds' ∧
      ds'.length = ds.length ∧
      ∀ j, semiAt dyn statics ds' j = if j = i then some x else semiAt dyn statics ds j := by
  have hb := dynamicIndex_bound dyn statics hi
  refine ⟨ds.set (dynamicIndex dyn statics i) x, by simp [semiSet, hi], by simp, fun j => ?_⟩
  by_cases hji : j = i
  · subst hji; simp [semiAt, hi, hd, hb]
  · rw [if_neg hji]
    unfold semiAt
    cases hs : statics[j]? with
    | none => rfl
    | some s =>
      simp only
      by_cases h : s = dyn
      · subst h
        simp only [ne_eq, not_true_eq_false, if_false]
        rw [List.getElem?_set_ne]
        intro he
        rcases Nat.lt_trichotomy i j with h' | h' | h'
        · have := dynamicIndex_lt s statics hi h'; omega
        · exact hji h'.symm
        · have := dynamicIndex_lt s statics hs h'; omega
      · simp [h]

/-- **C32** Comparing the run-time values (`operator==`, `semi_static_array.hpp:97-101`) compares
all the elements. -/
theorem semi_eq_iff (dyn : α) (statics ds es : List α) (hd : ds.length = statics.count dyn)
    (he : es.length = statics.count dyn) :
    ds = es ↔ ∀ i, semiAt dyn statics ds i = semiAt dyn statics es i := by
  refine ⟨fun h i => by rw [h], fun h => ?_⟩
  apply List.ext_getElem? 
  intro k
  rcases Nat.lt_or_ge k (statics.count dyn) with hk | hk
  · obtain ⟨i, h1, h2⟩ := (slots_bijective dyn statics).2.2 k hk
    have := h i
    simpa [semiAt, h1, h2] using this
  · rw [List.getElem?_eq_none (by omega), List.getElem?_eq_none (by omega)]

example : semiAt 9 [1, 9, 2, 9] (semiInit 9 0 [1, 9, 2, 9] [1, 5, 2, 6]) 3 = some 6 := by decide

end SemiStatic

end Actl.Containers
