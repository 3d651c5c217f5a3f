import Verif.Props.TextAssoc
import Verif.Props.AssocValid

/-!
C151: sets and maps read from any text are valid.
-/

namespace Actl.TextAssoc

open Actl.Text
open TextTree (RSt Reader)

variable {α : Type}

/-- All sets and maps inside are in order of their comparison, strictly if they are unique. -/
def AllOrdered (less : Less) : (t : Ty) → Val t → Prop
  | .base _, _ => True
  | .pair a b, x => AllOrdered less a x.1 ∧ AllOrdered less b x.2
  | .vec t, x => ∀ y ∈ (show List (Val t) from x), AllOrdered less t y
  | .set u t, x => Ordered u (less.elem t) x ∧ ∀ y ∈ (show List (Val t) from x), AllOrdered less t y
  | .map u k t, x => Ordered u (fun a b => less.key k a.1 b.1) x ∧ ∀ y ∈ (show List (TextTree.Val k × Val t) from x), AllOrdered less t y.2

theorem ordered_default (less : Less) (t : Ty) : AllOrdered less t (default t) := by
  induction t with
  | base t => trivial
  | pair a b iha ihb => exact ⟨iha, ihb⟩
  | vec t _ => exact fun y hy => absurd hy List.not_mem_nil
  | set u t _ => exact ⟨List.Pairwise.nil, fun y hy => absurd hy List.not_mem_nil⟩
  | map u k t _ => exact ⟨List.Pairwise.nil, fun y hy => absurd hy List.not_mem_nil⟩

/-- Reading with `rd` keeps `P`, whether or not it succeeds. -/
def Keeps (P : α → Prop) (rd : RSt → Option (Bool × α × RSt)) : Prop := ∀ s ok y s', rd s = some (ok, y, s') → P y

theorem nested_keeps {c : TextTree.Cfg} {r : Reader} {P : α → Prop} {rd : RSt → Option (Bool × α × RSt)} {x : α} (hx : P x) (h : Keeps P rd) :
    Keeps P (TextTree.nested c r rd x) := by
  intro s ok y s' e
  simp only [TextTree.nested, Option.bind_eq_some_iff] at e
  obtain ⟨⟨ok1, e1⟩, -, e⟩ := e
  cases ok1 with
  | false =>
    simp only [Bool.false_eq_true, if_false, Option.some.injEq, Prod.mk.injEq] at e
    rw [← e.2.1]
    exact hx
  | true =>
    simp only [if_true, Option.map_eq_some_iff, Prod.mk.injEq] at e
    obtain ⟨⟨ok2, v, s1⟩, h2, -, rfl, -⟩ := e
    exact h _ _ _ _ h2

theorem container_keeps {c : TextTree.Cfg} {r : Reader} {P : List α → Prop} {el : Nat → RSt → Option (Bool × List α × RSt)} {old : List α} (ho : P old)
    (h : ∀ n, Keeps P (el n)) : Keeps P (TextTree.readContainer c r old el) := by
  intro s ok y s' e
  simp only [TextTree.readContainer, Option.bind_eq_some_iff] at e
  obtain ⟨⟨ok1, n, e1⟩, -, e⟩ := e
  cases ok1 with
  | false =>
    simp only [Bool.false_eq_true, if_false, Option.some.injEq, Prod.mk.injEq] at e
    rw [← e.2.1]
    exact ho
  | true => exact h _ _ _ _ _ (by simpa using e)

theorem range_keeps {P : α → Prop} {rd : α → RSt → Option (Bool × α × RSt)} (h : ∀ x, P x → Keeps P (rd x)) (xs : List α) (hx : ∀ x ∈ xs, P x) :
    Keeps (fun l => ∀ x ∈ l, P x) (TextTree.readRange rd xs) := by
  induction xs with
  | nil =>
    intro s ok y s' e
    simp only [TextTree.readRange, Option.some.injEq, Prod.mk.injEq] at e
    rw [← e.2.1]
    exact hx
  | cons x xs ih =>
    intro s ok y s' e
    rw [TextTree.readRange, Option.bind_eq_some_iff] at e
    obtain ⟨⟨ok1, v, s1⟩, e1, e⟩ := e
    have hv := h x (hx x (by simp)) _ _ _ _ e1
    cases ok1 with
    | false =>
      simp only [Bool.false_eq_true, if_false, Option.some.injEq, Prod.mk.injEq] at e
      rw [← e.2.1]
      intro z hz
      rcases List.mem_cons.mp hz with rfl | hz
      · exact hv
      · exact hx z (by simp [hz])
    | true =>
      simp only [if_true, Option.map_eq_some_iff, Prod.mk.injEq] at e
      obtain ⟨⟨ok', l', s2'⟩, e2, -, rfl, -⟩ := e
      intro z hz
      rcases List.mem_cons.mp hz with rfl | hz
      · exact hv
      · exact ih (fun x h => hx x (by simp [h])) _ _ _ _ e2 z hz

theorem emplace_keeps_order {u : Bool} {L : α → α → Bool} (hl : BinaryAssoc.Strict L) {P : α → Prop} {rd : α → RSt → Option (Bool × α × RSt)} {fresh : α}
    (h : Keeps P (rd fresh)) (n : Nat) (xs : List α) (hs : Ordered u L xs) (hx : ∀ x ∈ xs, P x) :
    Keeps (fun l => Ordered u L l ∧ ∀ x ∈ l, P x) (readEmplace (BinaryAssoc.emplace u L) rd fresh n xs) := by
  induction n generalizing xs with
  | zero =>
    intro s ok y s' e
    simp only [readEmplace, Option.some.injEq, Prod.mk.injEq] at e
    rw [← e.2.1]
    exact ⟨hs, hx⟩
  | succ n ih =>
    intro s ok y s' e
    rw [readEmplace, Option.bind_eq_some_iff] at e
    obtain ⟨⟨ok1, v, s1⟩, e1, e⟩ := e
    cases ok1 with
    | false =>
      simp only [Bool.false_eq_true, if_false, Option.some.injEq, Prod.mk.injEq] at e
      rw [← e.2.1]
      exact ⟨hs, hx⟩
    | true =>
      refine ih (BinaryAssoc.emplace u L v xs) (BinaryAssoc.emplace_sorted hl v hs) (fun z hz => ?_) _ _ _ _ (by simpa using e)
      rcases BinaryAssoc.emplace_keeps.2 z hz with rfl | hz
      · exact h _ _ _ _ e1
      · exact hx z hz

theorem read_keeps_order (c : TextTree.Cfg) (r : Reader) (less : Less) (hl : ∀ t, BinaryAssoc.Strict (less.elem t))
    (hk : ∀ k, BinaryAssoc.Strict (less.key k)) (colon : RSt → Option (Bool × RSt)) (t : Ty) (old : Val t) (ho : AllOrdered less t old) :
    Keeps (AllOrdered less t) (read c r less colon t old) := by
  induction t with
  | base t => exact fun _ _ _ _ _ => trivial
  | pair a b iha ihb =>
    refine nested_keeps ho fun s ok y s' e => ?_
    rw [Option.bind_eq_some_iff] at e
    obtain ⟨⟨ok1, v, s1⟩, e1, e⟩ := e
    have hv := iha old.1 ho.1 _ _ _ _ e1
    cases ok1 with
    | false =>
      simp only [Bool.false_eq_true, if_false, Option.some.injEq, Prod.mk.injEq] at e
      obtain ⟨rfl, -⟩ := Prod.ext_iff.mp e.2
      exact ⟨hv, ho.2⟩
    | true =>
      simp only [if_true, Option.map_eq_some_iff, Prod.mk.injEq] at e
      obtain ⟨⟨ok', l', s2'⟩, e2, -, rfl, -⟩ := e
      exact ⟨hv, ihb old.2 ho.2 _ _ _ _ e2⟩
  | vec t ih =>
    refine nested_keeps (P := fun l : List (Val t) => ∀ y ∈ l, AllOrdered less t y) ho (container_keeps ho fun n s ok y s' e => ?_)
    rw [Option.bind_eq_some_iff] at e
    obtain ⟨xs, h1, e⟩ := e
    refine range_keeps (P := AllOrdered less t) (fun x hx => ih x hx) xs (fun x hx => ?_) _ _ _ _ e
    unfold TextTree.resize at h1
    split at h1
    · simp only [Option.some.injEq] at h1
      rw [← h1, List.mem_append] at hx
      rcases hx with hx | hx
      · exact ho x (List.mem_of_mem_take hx)
      · rw [(List.mem_replicate.mp hx).2]
        exact ordered_default less t
    · simp at h1
  | set u t ih =>
    exact nested_keeps (P := fun l : List (Val t) => Ordered u (less.elem t) l ∧ ∀ y ∈ l, AllOrdered less t y) ho (container_keeps ho fun n =>
      emplace_keeps_order (hl t) (ih (default t) (ordered_default less t)) n old ho.1 ho.2)
  | map u k t ih =>
    refine nested_keeps (P := fun l : List (TextTree.Val k × Val t) => Ordered u (fun a b : TextTree.Val k × Val t => less.key k a.1 b.1) l ∧ ∀ y ∈ l, AllOrdered less t y.2) ho
      (container_keeps ho fun n => emplace_keeps_order (L := fun a b : TextTree.Val k × Val t => less.key k a.1 b.1) (P := fun y => AllOrdered less t y.2)
        ⟨fun x => (hk k).1 _, fun x y z => (hk k).2 _ _ _⟩ (fun s ok y s' e => ?_) n old ho.1 ho.2)
    rw [readEntry, Option.bind_eq_some_iff] at e
    obtain ⟨⟨ok1, s1⟩, e1, e⟩ := e
    cases ok1 with
    | false =>
      simp only [Bool.false_eq_true, if_false, Option.some.injEq, Prod.mk.injEq] at e
      rw [← e.2.1]
      exact ordered_default less t
    | true =>
      simp only [if_true, Option.bind_eq_some_iff] at e
      obtain ⟨⟨ok2, s2⟩, e2, e⟩ := e
      cases ok2 with
      | false =>
        simp only [Bool.false_eq_true, if_false, Option.some.injEq, Prod.mk.injEq] at e
        rw [← e.2.1]
        exact ordered_default less t
      | true =>
        simp only [if_true, Option.map_eq_some_iff, Prod.mk.injEq] at e
        obtain ⟨⟨ok', l', s2'⟩, e2, -, rfl, -⟩ := e
        exact ih (default t) (ordered_default less t) _ _ _ _ e2

/-- **C151** Reading from text, whatever the text is and whether or not reading succeeds: all sets and maps in the object, if they were sorted by their comparison before, are so
afterwards, those that are unique without equivalent elements. -/
theorem read_any_ordered {c : TextTree.Cfg} {r : Reader} {less : Less} (hl : ∀ t, BinaryAssoc.Strict (less.elem t))
    (hk : ∀ k, BinaryAssoc.Strict (less.key k)) {colon : RSt → Option (Bool × RSt)} {t : Ty} {old y : Val t} (ho : AllOrdered less t old)
    {s s' : RSt} {ok : Bool} (h : readBack c r less colon t old s = some (ok, y, s')) : AllOrdered less t y := by
  unfold readBack at h
  split at h
  · exact read_keeps_order c r less hl hk colon t old ho _ _ _ _ h
  · simp at h

example {r : Reader} {colon : RSt → Option (Bool × RSt)} {y : Val exSets} {s s' : RSt} {ok : Bool}
    (h : readBack TextTree.exCfg r exLess colon exSets (([3, 7] : List Int), ([] : List Bool)) s = some (ok, y, s')) : AllOrdered exLess exSets y :=
  read_any_ordered
    (fun t => by
      match t with
      | .base (.int _ _) => exact ⟨fun (x : Int) => by simp only [exLess, decide_eq_false_iff_not]; omega, fun (x y z : Int) => by simp only [exLess, decide_eq_true_eq]; omega⟩
      | .base .bool => exact ⟨fun (x : Bool) => by cases x <;> rfl, fun (x y z : Bool) => by cases x <;> cases y <;> cases z <;> simp [exLess]⟩
      | .base .char | .base .str | .base (.tuple _) | .base (.array _ _) | .base (.vec _) | .base (.seq _) | .pair _ _ | .vec _ | .set _ _ | .map _ _ _ =>
        exact ⟨fun _ => rfl, fun _ _ _ h _ => h⟩)
    (fun k => by
      match k with
      | .int _ _ => exact ⟨fun (x : Int) => by simp only [exLess, decide_eq_false_iff_not]; omega, fun (x y z : Int) => by simp only [exLess, decide_eq_true_eq]; omega⟩
      | .bool | .char | .str | .tuple _ | .array _ _ | .vec _ | .seq _ => exact ⟨fun _ => rfl, fun _ _ _ h _ => h⟩)
    (t := exSets) (old := (([3, 7] : List Int), ([] : List Bool)))
    ⟨⟨(by decide : ([3, 7] : List Int).Pairwise fun x y => decide (x < y) = true), fun _ _ => trivial⟩, List.Pairwise.nil,
      fun _ h => absurd h List.not_mem_nil⟩ h

end Actl.TextAssoc
