import Verif.Model.Ids
import Mathlib.Data.List.Nodup
import Mathlib.Data.List.Perm.Basic
import Mathlib.Data.List.InsertIdx
import Mathlib.Data.List.TakeWhile

/-! Facts about ids of containers. -/

namespace Actl.Ids

variable {α κ : Type} [LinearOrder κ] (key : α → κ)

/-- The nodes of a container: distinct addresses below the next one; no two equal keys in a unique
container; keys in order in a sorted one. -/
structure Cont.WF (c : Cont α) : Prop where
  nodup : (c.items.map Prod.fst).Nodup
  lt : ∀ p ∈ c.items, p.1 < c.next
  uniq : c.kind.unique = true → c.values.Pairwise fun x y => key x ≠ key y
  sorted : c.kind.sorted = true → c.values.Pairwise fun x y => key x ≤ key y

theorem Cont.WF.empty (k : Kind) : (Cont.empty k : Cont α).WF key :=
  ⟨List.nodup_nil, fun _ h => absurd h List.not_mem_nil, fun _ => List.Pairwise.nil,
    fun _ => List.Pairwise.nil⟩

theorem toInt_of_lt {n : Nat} (h : n < 2 ^ 31) : toInt n = n := by
  unfold toInt; rw [Int.bmod_def]; omega

variable {key}

theorem findPos_lt {c : Cont α} {k : κ} :
    c.findPos key k < c.items.length ↔ ∃ x ∈ c.values, key x = k := by
  unfold Cont.findPos
  rw [List.findIdx_lt_length]
  simp only [decide_eq_true_eq, Cont.values, List.mem_map]
  constructor
  · rintro ⟨p, h, e⟩; exact ⟨p.2, ⟨p, h, rfl⟩, e⟩
  · rintro ⟨x, ⟨p, h, rfl⟩, e⟩; exact ⟨p, h, e⟩

/-- What an id of a node designates. -/
theorem at_node {c : Cont α} (hw : (c.items.map Prod.fst).Nodup) (hk : c.kind.ra = false) {id : Int}
    {x : α} : c.at id = some x ↔ ∃ a : Nat, id = a ∧ (a, x) ∈ c.items := by
  unfold Cont.at
  rw [hk]; simp only [Bool.false_eq_true, if_false, Option.map_eq_some_iff]
  constructor
  · rintro ⟨⟨a, y⟩, h, rfl⟩
    have := List.find?_some h
    exact ⟨a, by simpa using (by simpa using this : (a : Int) = id).symm, List.mem_of_find?_eq_some h⟩
  · rintro ⟨a, rfl, h⟩
    refine ⟨(a, x), ?_, rfl⟩
    rcases hf : c.items.find? (fun p => (p.1 : Int) == a) with _ | ⟨b, y⟩
    · rw [List.find?_eq_none] at hf
      exact absurd (hf _ h) (by simp)
    · have h1 := List.find?_some hf
      have h2 := List.mem_of_find?_eq_some hf
      have e : b = a := Int.ofNat.inj (by simpa using h1)
      subst e
      have := List.inj_on_of_nodup_map hw h2 h rfl
      rw [← this]; exact hf

theorem at_vec {c : Cont α} (hk : c.kind.ra = true) {id : Int} {x : α} :
    c.at id = some x ↔ 0 ≤ id ∧ c.values[id.toNat]? = some x := by
  unfold Cont.at; rw [hk]; simp only [if_true]; split
  · simp_all
  · rename_i h; simp [h]

theorem inserted_perm (key : α → κ) (ord : Order α) (c : Cont α) (x : α) :
    (c.inserted key ord x).Perm ((c.next, x) :: c.items) := by
  unfold Cont.inserted
  split
  · exact ord.perm _ _
  split
  · refine List.perm_insertIdx _ _ ?_
    unfold upperBound; exact (List.takeWhile_sublist _).length_le
  · exact List.perm_append_comm

theorem insertIdx_takeWhile (p : Nat × α → Bool) (y : Nat × α) (l : List (Nat × α)) :
    l.insertIdx (l.takeWhile p).length y = l.takeWhile p ++ y :: l.dropWhile p := by
  induction l with
  | nil => simp
  | cons a l ih =>
    by_cases h : p a
    · simp [h, ih]
    · simp [h]

theorem inserted_sorted (ord : Order α) {c : Cont α} (x : α) (hs : c.kind.sorted = true)
    (h : c.values.Pairwise fun x y => key x ≤ key y) :
    ((c.inserted key ord x).map Prod.snd).Pairwise fun x y => key x ≤ key y := by
  have hh : c.kind.hashed = false := by revert hs; cases c.kind <;> decide
  unfold Cont.inserted
  rw [hh, hs]; simp only [Bool.false_eq_true, if_false, if_true]
  unfold upperBound
  rw [insertIdx_takeWhile]
  unfold Cont.values at h
  rw [List.pairwise_map] at h ⊢
  generalize c.items = l at h
  induction l with
  | nil => simp
  | cons a l ih =>
    rw [List.pairwise_cons] at h
    by_cases ha : key a.2 ≤ key x
    · simp only [List.takeWhile_cons, List.dropWhile_cons, ha, decide_true, if_true, List.cons_append,
        List.pairwise_cons]
      refine ⟨?_, ih h.2⟩
      intro b hb
      rcases List.mem_append.mp hb with hb | hb
      · exact h.1 b (List.takeWhile_subset _ hb)
      · rcases List.mem_cons.mp hb with rfl | hb
        · exact ha
        · exact h.1 b ((List.dropWhile_sublist _).subset hb)
    · simp only [List.takeWhile_cons, List.dropWhile_cons, ha, decide_false, Bool.false_eq_true, if_false,
        List.nil_append, List.pairwise_cons]
      have hx := le_of_lt (not_le.mp ha)
      refine ⟨?_, h⟩
      intro b hb
      rcases List.mem_cons.mp hb with rfl | hb
      · exact hx
      · exact le_trans hx (h.1 b hb)

/-- The position of the node found by its address. -/
theorem findIdx_addr {l : List (Nat × α)} {a : Nat} {x : α} (hn : (l.map Prod.fst).Nodup)
    (h : (a, x) ∈ l) : l[l.findIdx fun p => p.1 == a]? = some (a, x) := by
  have hl : l.findIdx (fun p => p.1 == a) < l.length :=
    List.findIdx_lt_length.mpr ⟨_, h, by simp⟩
  have h1 := List.findIdx_getElem (w := hl)
  rw [List.getElem?_eq_getElem hl]
  have e : (l[l.findIdx fun p => p.1 == a]).1 = a := by simpa using h1
  exact congrArg some (List.inj_on_of_nodup_map hn (List.getElem_mem hl) h e)

theorem emplace_dup (ord : Order α) {c : Cont α} {x : α}
    (h : c.kind.unique = true ∧ ∃ y ∈ c.values, key y = key x) :
    c.emplace key ord x = (c, c.findPos key (key x), false) := by
  unfold Cont.emplace; rw [if_pos ⟨h.1, findPos_lt.mpr h.2⟩]

theorem emplace_new (ord : Order α) {c : Cont α} {x : α}
    (h : ¬(c.kind.unique = true ∧ ∃ y ∈ c.values, key y = key x)) :
    c.emplace key ord x = (⟨c.kind, c.inserted key ord x, c.next + 1⟩,
      (c.inserted key ord x).findIdx fun p => p.1 == c.next, true) := by
  unfold Cont.emplace; rw [if_neg fun hc => h ⟨hc.1, findPos_lt.mp hc.2⟩]

theorem new_nodup {c : Cont α} (hn : (c.items.map Prod.fst).Nodup) (hl : ∀ p ∈ c.items, p.1 < c.next)
    (ord : Order α) (x : α) : ((c.inserted key ord x).map Prod.fst).Nodup := by
  rw [((inserted_perm key ord c x).map Prod.fst).nodup_iff, List.map_cons, List.nodup_cons]
  refine ⟨?_, hn⟩
  intro hm
  obtain ⟨p, hp, e⟩ := List.mem_map.mp hm
  exact absurd (hl p hp) (by rw [e]; exact lt_irrefl _)

theorem Cont.WF.emplace {c : Cont α} (hw : c.WF key) (ord : Order α) (x : α) :
    (c.emplace key ord x).1.WF key := by
  by_cases h : c.kind.unique = true ∧ ∃ y ∈ c.values, key y = key x
  · rw [emplace_dup ord h]; exact hw
  · rw [emplace_new ord h]
    refine ⟨new_nodup hw.nodup hw.lt ord x, ?_, ?_, fun hs => inserted_sorted ord x hs (hw.sorted hs)⟩
    · intro p hp
      rcases List.mem_cons.mp ((inserted_perm key ord c x).mem_iff.mp hp) with rfl | hp
      · exact Nat.lt_succ_self _
      · exact Nat.lt_succ_of_lt (hw.lt p hp)
    · intro hu
      have hp : ((c.inserted key ord x).map Prod.snd).Perm (x :: c.values) :=
        (inserted_perm key ord c x).map Prod.snd
      show ((c.inserted key ord x).map Prod.snd).Pairwise _
      rw [hp.pairwise_iff (fun {a b} h => h.symm), List.pairwise_cons]
      refine ⟨fun y hy e => h ⟨hu, y, hy, e.symm⟩, hw.uniq hu⟩

theorem emplace_kind (ord : Order α) (c : Cont α) (x : α) : (c.emplace key ord x).1.kind = c.kind := by
  by_cases h : c.kind.unique = true ∧ ∃ y ∈ c.values, key y = key x
  · rw [emplace_dup ord h]
  · rw [emplace_new ord h]

theorem vec_inserted (key : α → κ) (ord : Order α) {c : Cont α} (x : α) (hk : c.kind.assoc = false) :
    c.inserted key ord x = c.items ++ [(c.next, x)] := by
  unfold Cont.inserted
  revert hk; cases c.kind <;> simp [Kind.assoc, Kind.hashed, Kind.sorted]

theorem vec_findIdx {c : Cont α} (hl : ∀ p ∈ c.items, p.1 < c.next) (x : α) :
    (c.items ++ [(c.next, x)]).findIdx (fun p => p.1 == c.next) = c.items.length := by
  rw [List.findIdx_append]
  have : ¬ c.items.findIdx (fun p => p.1 == c.next) < c.items.length := by
    rw [List.findIdx_lt_length]
    rintro ⟨p, hp, e⟩
    have e : p.1 = c.next := by simpa using e
    exact absurd (hl p hp) (by rw [e]; exact lt_irrefl _)
  rw [if_neg this]; simp

end Actl.Ids
