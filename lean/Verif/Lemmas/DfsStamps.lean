import Verif.Lemmas.DfsOrder
import Mathlib.Tactic.Ring

/-!
Time stamps count the vertices started.
-/

namespace Actl.Traversal

variable {V E : Type} [DecidableEq V] {G : Graph V E} {D' : Set V} {us : List V} {l : List (Event V E)}

theorem stamps_now (value : Int) (l : List (Event V E)) (s : Stamps V) :
    (after (timeStamper value) s l).now = s.now + (starts l).length := by
  induction l generalizing s with
  | nil => simp [after_nil, starts]
  | cons ev l ih =>
    rw [after_cons, ih]
    cases ev <;> simp [timeStamper, starts, List.filterMap_cons]
    ring

theorem stamps_in_same (value : Int) (l : List (Event V E)) (s : Stamps V) (v : V) (h1 : Event.start v ∉ l)
    (h2 : Event.init v ∉ l) : (after (timeStamper value) s l).inTime v = s.inTime v := by
  induction l generalizing s with
  | nil => rfl
  | cons ev l ih =>
    rw [after_cons, ih _ (fun h => h1 (List.mem_cons_of_mem _ h)) (fun h => h2 (List.mem_cons_of_mem _ h))]
    cases ev with
    | start u =>
      have : v ≠ u := fun h => h1 (by rw [h]; exact List.mem_cons_self)
      simp [timeStamper, put, this]
    | init u =>
      have : v ≠ u := fun h => h2 (by rw [h]; exact List.mem_cons_self)
      simp [timeStamper, put, this]
    | _ => rfl

theorem stamps_out_same (value : Int) (l : List (Event V E)) (s : Stamps V) (v : V) (h1 : Event.finish v ∉ l) :
    (after (timeStamper value) s l).outTime v = s.outTime v := by
  induction l generalizing s with
  | nil => rfl
  | cons ev l ih =>
    rw [after_cons, ih _ (fun h => h1 (List.mem_cons_of_mem _ h))]
    cases ev with
    | finish u =>
      have : v ≠ u := fun h => h1 (by rw [h]; exact List.mem_cons_self)
      simp [timeStamper, put, this]
    | _ => rfl

variable [DecidableEq E]

/-- The number of vertices started before a moment. -/
def startedBefore (l : List (Event V E)) (i : Nat) : Nat := (starts (l.take i)).length

omit [DecidableEq V] [DecidableEq E] in
theorem startedBefore_mono (l : List (Event V E)) {i j : Nat} (h : i ≤ j) : startedBefore l i ≤ startedBefore l j := by
  unfold startedBefore
  obtain ⟨t, ht⟩ := List.take_prefix_take_left (l := l) h
  rw [← ht, starts_append, List.length_append]
  omega

theorem startedBefore_lt (l : List (Event V E)) {v : V} (hv : Event.start v ∈ l) {j : Nat} (h : startAt l v < j) :
    startedBefore l (startAt l v) < startedBefore l j := by
  refine Nat.lt_of_lt_of_le ?_ (startedBefore_mono l (show startAt l v + 1 ≤ j from h))
  unfold startedBefore startAt
  have hl : l.idxOf (Event.start v) < l.length := List.idxOf_lt_length_of_mem hv
  rw [List.take_succ_eq_append_getElem hl, starts_append, List.getElem_idxOf]
  simp

theorem stamps_in (value : Int) (s : Stamps V) (hn : (starts l).Nodup) (hi : ∀ v, Event.init v ∉ l) {v : V}
    (hv : Event.start v ∈ l) :
    (after (timeStamper value) s l).inTime v = s.now + startedBefore l (startAt l v) := by
  obtain ⟨p, q, rfl⟩ := List.append_of_mem hv
  have hp : Event.start v ∉ p := fun h => start_once hn h List.mem_cons_self
  have hq : Event.start v ∉ q := fun h => by
    rw [← List.singleton_append, ← List.append_assoc] at hn
    exact start_once hn (by simp) h
  unfold startedBefore startAt
  rw [idxOf_mid hp, List.take_left', after_append, after_cons, stamps_in_same _ _ _ _ hq (fun h => hi v (by simp [h]))]
  · show put _ v (after (timeStamper value) s p).now v = _
    rw [stamps_now]
    simp [put]
  · rfl

theorem stamps_out (value : Int) (s : Stamps V) (hn : (finishes l).Nodup) {v : V} (hv : Event.finish v ∈ l) :
    (after (timeStamper value) s l).outTime v = s.now + startedBefore l (finishAt l v) := by
  obtain ⟨p, q, rfl⟩ := List.append_of_mem hv
  have hp : Event.finish v ∉ p := fun h => finish_once hn h List.mem_cons_self
  have hq : Event.finish v ∉ q := fun h => by
    rw [← List.singleton_append, ← List.append_assoc] at hn
    exact finish_once hn (by simp) h
  unfold startedBefore finishAt
  rw [idxOf_mid hp, List.take_left', after_append, after_cons, stamps_out_same _ _ _ _ hq]
  · show put _ v (after (timeStamper value) s p).now v = _
    rw [stamps_now]
    simp [put]
  · rfl

end Actl.Traversal
