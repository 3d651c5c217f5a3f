import Verif.Model.Connectivity
import Mathlib.Data.Set.Insert
import Mathlib.Data.List.Basic

/-!
The stack of components: the vertices of the path of the search are on it, each with vertices above it
related to it.
-/

namespace Actl.Traversal

variable {V E : Type} [DecidableEq V] {R : V → V → Prop}

/-- Along the path (current vertex first) the stack holds every vertex of the path below vertices
related to it. -/
inductive StackOK (R : V → V → Prop) : List V → List V → Prop
  | nil : StackOK R [] []
  | cons {x : V} {P S st : List V} (hS : ∀ y ∈ S, R x y) (h : StackOK R P st) : StackOK R (x :: P) (S ++ x :: st)

/-- The invariant of the stack and the numbers. -/
structure CompOK (R : V → V → Prop) (P : List V) (D : Set V) (c : CompStack V) : Prop where
  ok : StackOK R P c.stack
  nodup : c.stack.Nodup
  sub : ∀ y ∈ c.stack, y ∈ D
  nonneg : 0 ≤ c.n
  range : ∀ y ∈ D, y ∉ c.stack → 0 ≤ c.map y ∧ c.map y < c.n
  same : ∀ y ∈ D, y ∉ c.stack → ∀ z ∈ D, z ∉ c.stack → c.map y = c.map z → R y z
  used : ∀ k, 0 ≤ k → k < c.n → ∃ y ∈ D, y ∉ c.stack ∧ c.map y = k
  good : c.bad = false

theorem StackOK.mem {P st : List V} (h : StackOK R P st) : ∀ x ∈ P, x ∈ st := by
  induction h with
  | nil => exact fun x hx => hx
  | @cons x P S st hS h ih =>
    intro y hy
    rcases List.mem_cons.mp hy with rfl | hy
    · simp
    · have := ih y hy
      simp [this]

theorem popLoop_spec (x : V) (n : Int) (S st : List V) (m : V → Int) (hx : x ∉ S) :
    ∃ m', popLoop x n (S ++ x :: st) m = some (st, m') ∧ ∀ y, m' y = if y ∈ S ∨ y = x then n else m y := by
  induction S generalizing m with
  | nil => exact ⟨put m x n, by simp [popLoop], fun y => by simp [put]⟩
  | cons z S ih =>
    rw [List.mem_cons, not_or] at hx
    obtain ⟨m', h1, h2⟩ := ih (put m z n) hx.2
    refine ⟨m', ?_, fun y => ?_⟩
    · rw [List.cons_append, popLoop, if_neg (Ne.symm hx.1), h1]
    · rw [h2]
      by_cases hyz : y = z
      · simp [put, hyz]
      · by_cases hy : y ∈ S ∨ y = x
        · rw [if_pos hy, if_pos (by rw [List.mem_cons]; tauto)]
        · rw [if_neg hy, if_neg (by rw [List.mem_cons]; tauto)]
          simp [put, hyz]

theorem CompOK.push {P : List V} {D : Set V} {c : CompStack V} (h : CompOK R P D c) {v : V} (hv : v ∉ D) :
    CompOK R (v :: P) (insert v D) (c.push v) where
  ok := StackOK.cons (S := []) (fun y hy => absurd hy List.not_mem_nil) h.ok
  nodup := List.nodup_cons.mpr ⟨fun hm => hv (h.sub v hm), h.nodup⟩
  sub y hy := by
    rcases List.mem_cons.mp hy with rfl | hy
    · exact Set.mem_insert _ _
    · exact Set.mem_insert_of_mem _ (h.sub y hy)
  nonneg := h.nonneg
  range y hy hn := by
    have hn := (not_or.mp (fun h => hn (List.mem_cons.mpr h)))
    exact h.range y ((Set.mem_insert_iff.mp hy).resolve_left hn.1) hn.2
  same y hy hn z hz hn' he := by
    have hn := (not_or.mp (fun h => hn (List.mem_cons.mpr h)))
    have hn' := (not_or.mp (fun h => hn' (List.mem_cons.mpr h)))
    exact h.same y ((Set.mem_insert_iff.mp hy).resolve_left hn.1) hn.2 z
      ((Set.mem_insert_iff.mp hz).resolve_left hn'.1) hn'.2 he
  used k h1 h2 := by
    obtain ⟨y, hy, hn, he⟩ := h.used k h1 h2
    refine ⟨y, Set.mem_insert_of_mem _ hy, fun hm => ?_, he⟩
    rcases List.mem_cons.mp hm with rfl | hm
    · exact hv hy
    · exact hn hm
  good := h.good

theorem CompOK.pop (hR : Equivalence R) {P : List V} {D : Set V} {c : CompStack V} {x : V} (h : CompOK R (x :: P) D c) :
    CompOK R P D (c.pop x) := by
  obtain ⟨h1, h2, h3, h4, h5, h6, h7, h8⟩ := h
  obtain ⟨stack, map, n, bad⟩ := c
  simp only at h1 h2 h3 h4 h5 h6 h7 h8
  cases h1 with
  | @cons _ _ S st hS hst =>
    have hxS : x ∉ S := by
      intro hx
      have := (List.nodup_append.mp h2).2.2 x hx x (by simp)
      exact this rfl
    obtain ⟨m', e1, e2⟩ := popLoop_spec x n S st map hxS
    have hpop : CompStack.pop ⟨S ++ x :: st, map, n, bad⟩ x = ⟨st, m', n + 1, bad⟩ := by
      unfold CompStack.pop
      simp only [e1]
    have hdisj : ∀ y, y ∈ S ∨ y = x → y ∉ st := by
      rintro y (hy | rfl) hst
      · exact (List.nodup_append.mp h2).2.2 y hy y (by simp [hst]) rfl
      · exact (List.nodup_cons.mp (List.nodup_append.mp h2).2.1).1 hst
    have hnot : ∀ y, y ∉ st → ¬(y ∈ S ∨ y = x) → y ∉ S ++ x :: st := by
      intro y hy hn hm
      rw [List.mem_append, List.mem_cons] at hm
      tauto
    have hRx : ∀ y, y ∈ S ∨ y = x → R x y := by
      rintro y (hy | rfl)
      · exact hS y hy
      · exact hR.refl _
    rw [hpop]
    refine ⟨hst, ?_, fun y hy => h3 y (by simp [hy]), by simp only; omega, fun y hy hn => ?_, fun y hy hn z hz hn' he => ?_,
      fun k k1 k2 => ?_, h8⟩
    · exact (List.nodup_cons.mp (List.nodup_append.mp h2).2.1).2
    · simp only at hn ⊢
      rw [e2]
      split
      · exact ⟨h4, by omega⟩
      · have := h5 y hy (hnot y hn (by assumption))
        exact ⟨this.1, by omega⟩
    · simp only at hn hn' he
      rw [e2, e2] at he
      by_cases c1 : y ∈ S ∨ y = x
      · by_cases c2 : z ∈ S ∨ z = x
        · exact hR.trans (hR.symm (hRx y c1)) (hRx z c2)
        · rw [if_pos c1, if_neg c2] at he
          have := (h5 z hz (hnot z hn' c2)).2
          omega
      · by_cases c2 : z ∈ S ∨ z = x
        · rw [if_neg c1, if_pos c2] at he
          have := (h5 y hy (hnot y hn c1)).2
          omega
        · rw [if_neg c1, if_neg c2] at he
          exact h6 y hy (hnot y hn c1) z hz (hnot z hn' c2) he
    · simp only at k2 ⊢
      by_cases hk : k = n
      · exact ⟨x, h3 x (by simp), hdisj x (Or.inr rfl), by rw [e2, if_pos (Or.inr rfl), hk]⟩
      · obtain ⟨y, y1, y2, y3⟩ := h7 k k1 (by omega)
        refine ⟨y, y1, fun hm => y2 (by simp [hm]), ?_⟩
        rw [e2, if_neg, y3]
        rintro (hm | rfl)
        · exact y2 (by simp [hm])
        · exact y2 (by simp)

/-- The vertices popped with `x` and those staying. -/
theorem CompOK.keep (hR : Equivalence R) {P : List V} {D : Set V} {c : CompStack V} {u v : V} (h : CompOK R (v :: u :: P) D c)
    (huv : R u v) : CompOK R (u :: P) D c := by
  refine ⟨?_, h.nodup, h.sub, h.nonneg, h.range, h.same, h.used, h.good⟩
  have h1 := h.ok
  generalize c.stack = stack at h1
  cases h1 with
  | @cons _ _ S st hS hst =>
    cases hst with
    | @cons _ _ S' st' hS' hst' =>
      have : S ++ v :: (S' ++ u :: st') = (S ++ v :: S') ++ u :: st' := by simp
      rw [this]
      refine StackOK.cons (fun y hy => ?_) hst'
      rw [List.mem_append, List.mem_cons] at hy
      rcases hy with hy | rfl | hy
      · exact hR.trans huv (hS y hy)
      · exact huv
      · exact hS' y hy

end Actl.Traversal
