import Verif.Lemmas.Ids

/-! C60: ids of containers stay valid under insertion. -/

namespace Actl.Ids

variable {α κ : Type} [LinearOrder κ] {key : α → κ}

/-- The ids of a vector are `int`s: it must have less than `2^31` elements. -/
def Cont.Fits (c : Cont α) : Prop := c.kind.ra = true → c.items.length < 2 ^ 31

/-- What `id_emplace` does, for every container and element:
* it refuses exactly if the container is unique and has an equal element, changes nothing then, and
  returns the id of the equal element;
* otherwise the new element is added (at the end of a sequence, in its place in a sorted container)
  and its id is returned;
* all ids keep designating what they did. -/
theorem idEmplace_spec (ord : Order α) {c : Cont α} (hw : c.WF key) (hf : c.Fits) (x : α) :
    let r := c.idEmplace key ord x
    (r.2.2 = false ↔ c.kind.unique = true ∧ ∃ y ∈ c.values, key y = key x) ∧
    (r.2.2 = false → r.1 = c ∧ ∃ y, c.at r.2.1 = some y ∧ key y = key x) ∧
    (r.2.2 = true → r.1.at r.2.1 = some x ∧ c.at r.2.1 = none ∧ r.1.values.Perm (x :: c.values) ∧
      (c.kind.assoc = false → r.1.values = c.values ++ [x])) ∧
    (∀ id y, c.at id = some y → r.1.at id = some y) ∧
    r.1.WF key ∧ r.1.kind = c.kind := by
  simp only [Cont.idEmplace]
  refine ⟨?_, ?_, ?_, ?_, hw.emplace ord x, emplace_kind ord c x⟩
  · by_cases h : c.kind.unique = true ∧ ∃ y ∈ c.values, key y = key x
    · rw [emplace_dup ord h]; simpa using h
    · rw [emplace_new ord h]; simpa using h
  · by_cases h : c.kind.unique = true ∧ ∃ y ∈ c.values, key y = key x
    · rw [emplace_dup ord h]
      intro _
      refine ⟨rfl, ?_⟩
      have hl := findPos_lt.mpr h.2
      have hra : c.kind.ra = false := by have := h.1; revert this; cases c.kind <;> decide
      have hg : c.items[c.findPos key (key x)]? = some (c.items[c.findPos key (key x)]) :=
        List.getElem?_eq_getElem hl
      refine ⟨(c.items[c.findPos key (key x)]).2, ?_, ?_⟩
      · rw [at_node hw.nodup hra]
        refine ⟨(c.items[c.findPos key (key x)]).1, ?_, List.getElem_mem hl⟩
        simp only [Cont.iteratorToId, hra, Bool.false_eq_true, if_false]
        rw [hg]
      · have := List.findIdx_getElem (w := hl)
        exact of_decide_eq_true this
    · rw [emplace_new ord h]; intro hc; simp at hc
  · by_cases h : c.kind.unique = true ∧ ∃ y ∈ c.values, key y = key x
    · rw [emplace_dup ord h]; intro hc; simp at hc
    · rw [emplace_new ord h]
      intro _
      have hnd := new_nodup (key := key) hw.nodup hw.lt ord x
      refine ⟨?_, ?_, (inserted_perm key ord c x).map Prod.snd, ?_⟩
      · cases hra : c.kind.ra
        · rw [at_node (c := ⟨c.kind, c.inserted key ord x, c.next + 1⟩) hnd hra]
          have hm : (c.next, x) ∈ c.inserted key ord x :=
            (inserted_perm key ord c x).mem_iff.mpr (List.mem_cons_self ..)
          refine ⟨c.next, ?_, hm⟩
          simp only [Cont.iteratorToId, hra, Bool.false_eq_true, if_false]
          rw [findIdx_addr hnd hm]
        · have ha : c.kind.assoc = false := by revert hra; cases c.kind <;> decide
          rw [at_vec (c := ⟨c.kind, c.inserted key ord x, c.next + 1⟩) hra]
          simp only [Cont.iteratorToId, hra, if_true, Cont.values]
          rw [vec_inserted key ord x ha, vec_findIdx hw.lt, toInt_of_lt (hf hra)]
          exact ⟨by omega, by simp⟩
      · cases hra : c.kind.ra
        · have hm : (c.next, x) ∈ c.inserted key ord x :=
            (inserted_perm key ord c x).mem_iff.mpr (List.mem_cons_self ..)
          simp only [Cont.iteratorToId, hra, Bool.false_eq_true, if_false]
          rw [findIdx_addr hnd hm]
          rcases he : c.at (c.next : Int) with _ | y
          · rfl
          · obtain ⟨a, e, hm⟩ := (at_node hw.nodup hra).mp he
            have e : c.next = a := Int.ofNat.inj e
            exact absurd (hw.lt _ hm) (by rw [e]; exact lt_irrefl _)
        · have ha : c.kind.assoc = false := by revert hra; cases c.kind <;> decide
          simp only [Cont.iteratorToId, hra, if_true]
          rw [vec_inserted key ord x ha, vec_findIdx hw.lt, toInt_of_lt (hf hra)]
          rcases he : c.at (c.items.length : Int) with _ | y
          · rfl
          · obtain ⟨-, e⟩ := (at_vec hra).mp he
            have := (List.getElem?_eq_some_iff.mp e).1
            simp [Cont.values] at this
      · intro ha
        show (c.inserted key ord x).map Prod.snd = _
        rw [vec_inserted key ord x ha]; simp [Cont.values]
  · intro id y hid
    by_cases h : c.kind.unique = true ∧ ∃ y ∈ c.values, key y = key x
    · rw [emplace_dup ord h]; exact hid
    · rw [emplace_new ord h]
      cases hra : c.kind.ra
      · obtain ⟨a, rfl, hm⟩ := (at_node hw.nodup hra).mp hid
        rw [at_node (c := ⟨c.kind, c.inserted key ord x, c.next + 1⟩)
          (new_nodup hw.nodup hw.lt ord x) hra]
        exact ⟨a, rfl, (inserted_perm key ord c x).mem_iff.mpr (List.mem_cons_of_mem _ hm)⟩
      · have ha : c.kind.assoc = false := by revert hra; cases c.kind <;> decide
        obtain ⟨h0, e⟩ := (at_vec hra).mp hid
        rw [at_vec (c := ⟨c.kind, c.inserted key ord x, c.next + 1⟩) hra]
        refine ⟨h0, ?_⟩
        show ((c.inserted key ord x).map Prod.snd)[id.toNat]? = some y
        rw [vec_inserted key ord x ha, List.map_append]
        have hl := (List.getElem?_eq_some_iff.mp e).1
        exact (List.getElem?_append_left hl).trans e

/-- Any sequence of insertions: the container and the ids returned. -/
def emplaceAll (key : α → κ) (ord : Order α) : Cont α → List α → Cont α × List (Int × Bool)
  | c, [] => (c, [])
  | c, x :: xs =>
    let r := c.idEmplace key ord x
    let rest := emplaceAll key ord r.1 xs
    (rest.1, r.2 :: rest.2)

theorem emplaceAll_keep (ord : Order α) {xs : List α} : ∀ {c : Cont α}, c.WF key →
    (c.kind.ra = true → c.items.length + xs.length ≤ 2 ^ 31) →
    (∀ id y, c.at id = some y → (emplaceAll key ord c xs).1.at id = some y) := by
  induction xs with
  | nil => intro c _ _ id y h; exact h
  | cons x xs ih =>
    intro c hw hf id y h
    have hs := idEmplace_spec ord hw
      (fun hr => by have := hf hr; simp only [List.length_cons] at this; omega) x
    refine ih hs.2.2.2.2.1 ?_ id y (hs.2.2.2.1 id y h)
    intro hr
    have hr : c.kind.ra = true := by rw [← hs.2.2.2.2.2]; exact hr
    have hl : (c.idEmplace key ord x).1.items.length ≤ c.items.length + 1 := by
      by_cases h : c.kind.unique = true ∧ ∃ y ∈ c.values, key y = key x
      · simp only [Cont.idEmplace, emplace_dup ord h]; omega
      · simp only [Cont.idEmplace, emplace_new ord h, (inserted_perm key ord c x).length_eq]; simp
    have := hf hr; simp only [List.length_cons] at this; omega

/-- After any sequence of insertions, with at most `2^31` elements in a vector, every id returned on
the way designates an element equal to the one given, and that very element if it was inserted. -/
theorem emplaceAll_ids (ord : Order α) {xs : List α} : ∀ {c : Cont α}, c.WF key →
    (c.kind.ra = true → c.items.length + xs.length ≤ 2 ^ 31) →
    (emplaceAll key ord c xs).2.length = xs.length ∧
    ∀ (i : Nat) x id ok, xs[i]? = some x → (emplaceAll key ord c xs).2[i]? = some (id, ok) →
      ∃ y, (emplaceAll key ord c xs).1.at id = some y ∧ key y = key x ∧ (ok = true → y = x) := by
  induction xs with
  | nil => intro c _ _; exact ⟨rfl, fun i x id ok h => absurd h (by simp)⟩
  | cons x xs ih =>
    intro c hw hf
    have hs := idEmplace_spec ord hw
      (fun hr => by have := hf hr; simp only [List.length_cons] at this; omega) x
    have hf' : (c.idEmplace key ord x).1.kind.ra = true →
        (c.idEmplace key ord x).1.items.length + xs.length ≤ 2 ^ 31 := by
      intro hr
      have hr : c.kind.ra = true := by rw [← hs.2.2.2.2.2]; exact hr
      have hl : (c.idEmplace key ord x).1.items.length ≤ c.items.length + 1 := by
        by_cases h : c.kind.unique = true ∧ ∃ y ∈ c.values, key y = key x
        · simp only [Cont.idEmplace, emplace_dup ord h]; omega
        · simp only [Cont.idEmplace, emplace_new ord h, (inserted_perm key ord c x).length_eq]; simp
      have := hf hr; simp only [List.length_cons] at this; omega
    obtain ⟨h1, h2⟩ := ih hs.2.2.2.2.1 hf'
    refine ⟨by simp [emplaceAll, h1], ?_⟩
    intro i z id ok hz hi
    rcases i with _ | i
    · simp only [emplaceAll, List.getElem?_cons_zero, Option.some.injEq] at hz hi
      subst hz
      cases hok : ok
      · have hr : (c.idEmplace key ord x).2.2 = false := by rw [hi]; exact hok
        obtain ⟨hc, y, hy, e⟩ := hs.2.1 hr
        rw [hi] at hy
        refine ⟨y, emplaceAll_keep ord hs.2.2.2.2.1 hf' id y (hs.2.2.2.1 id y hy), e, by simp⟩
      · have hr : (c.idEmplace key ord x).2.2 = true := by rw [hi]; exact hok
        have hy := (hs.2.2.1 hr).1
        rw [hi] at hy
        exact ⟨x, emplaceAll_keep ord hs.2.2.2.2.1 hf' id x hy, rfl, fun _ => rfl⟩
    · simp only [emplaceAll, List.getElem?_cons_succ] at hz hi
      exact h2 i z id ok hz hi

/-- `id_range` enumerates exactly the valid ids, each once, in the order of the elements; `id_null`
and `id_end` are not among them. -/
theorem ids_spec {c : Cont α} (hw : c.WF key) (hf : c.Fits) :
    ∃ l, c.ids = some l ∧ l.Nodup ∧ l.map c.at = c.values.map some ∧
      (∀ id, id ∈ l ↔ (c.at id).isSome) ∧ c.at c.idNull = none ∧ c.at c.idEnd = none := by
  cases hra : c.kind.ra
  · have hneg : c.at (-1) = none := by
      rcases he : c.at (-1) with _ | y
      · rfl
      · obtain ⟨a, e, -⟩ := (at_node hw.nodup hra).mp he; omega
    refine ⟨c.items.map fun p => (p.1 : Int), by simp [Cont.ids, hra], ?_, ?_, ?_, ?_, ?_⟩
    · have := hw.nodup.map (f := fun n : Nat => (n : Int)) (fun a b h => Int.ofNat.inj h)
      simpa [List.map_map, Function.comp_def] using this
    · rw [List.map_map]; unfold Cont.values; rw [List.map_map]
      refine List.map_congr_left fun p hp => ?_
      exact (at_node hw.nodup hra).mpr ⟨p.1, rfl, hp⟩
    · intro id
      rw [Option.isSome_iff_exists, List.mem_map]
      constructor
      · rintro ⟨p, hp, rfl⟩; exact ⟨p.2, (at_node hw.nodup hra).mpr ⟨p.1, rfl, hp⟩⟩
      · rintro ⟨x, h⟩
        obtain ⟨a, rfl, hm⟩ := (at_node hw.nodup hra).mp h
        exact ⟨(a, x), hm, rfl⟩
    · simpa [Cont.idNull, Cont.idEnd, hra] using hneg
    · simpa [Cont.idEnd, hra] using hneg
  · have he : c.idEnd = c.items.length := by simp [Cont.idEnd, hra, toInt_of_lt (hf hra)]
    refine ⟨(List.range c.items.length).map fun i : Nat => (i : Int), ?_, ?_, ?_, ?_, ?_, ?_⟩
    · simp [Cont.ids, hra, he]
    · exact List.nodup_range.map (fun a b h => Int.ofNat.inj h)
    · rw [List.map_map]
      refine List.ext_getElem (by simp [Cont.values]) fun i h1 h2 => ?_
      simp [Cont.at, hra, Cont.values]
      simp at h1
      exact ⟨_, List.getElem?_eq_getElem h1⟩
    · intro id
      rw [List.mem_map, Option.isSome_iff_exists]
      constructor
      · rintro ⟨i, hi, rfl⟩
        rw [List.mem_range] at hi
        refine ⟨(c.items[i]).2, (at_vec hra).mpr ⟨by omega, ?_⟩⟩
        simp [Cont.values, List.getElem?_eq_getElem hi]
      · rintro ⟨x, h⟩
        obtain ⟨h0, e⟩ := (at_vec hra).mp h
        have := (List.getElem?_eq_some_iff.mp e).1
        simp only [Cont.values, List.length_map] at this
        exact ⟨id.toNat, List.mem_range.mpr this, by omega⟩
    · simp [Cont.idNull, hra, Cont.at]
    · rw [he]; simp [Cont.at, hra, Cont.values]

/-- `id_find` returns the id of the first equal element, or `id_end` if there is none. -/
theorem idFind_spec {c : Cont α} (hw : c.WF key) (hf : c.Fits) (k : κ) :
    ((∃ y ∈ c.values, key y = k) → c.at (c.idFind key k) = c.values.find? (fun y => key y = k) ∧
      (c.at (c.idFind key k)).isSome) ∧
    ((∀ y ∈ c.values, key y ≠ k) → c.idFind key k = c.idEnd) := by
  have hg : c.values.find? (fun y => key y = k) = (c.items[c.findPos key k]?).map Prod.snd := by
    unfold Cont.values Cont.findPos
    rw [List.find?_map, List.find?_eq_getElem?_findIdx]; rfl
  constructor
  · intro h
    have hl := findPos_lt.mpr h
    rw [List.getElem?_eq_getElem hl] at hg
    have : c.at (c.idFind key k) = some (c.items[c.findPos key k]).2 := by
      unfold Cont.idFind Cont.iteratorToId
      cases hra : c.kind.ra
      · rw [at_node hw.nodup hra]
        refine ⟨(c.items[c.findPos key k]).1, ?_, List.getElem_mem hl⟩
        simp [List.getElem?_eq_getElem hl]
      · rw [at_vec hra, if_pos rfl, toInt_of_lt (lt_trans hl (hf hra))]
        exact ⟨by omega, by simp [Cont.values, List.getElem?_eq_getElem hl]⟩
    rw [this, hg]; exact ⟨rfl, rfl⟩
  · intro h
    have hl : c.findPos key k = c.items.length := by
      have h1 : ¬ c.findPos key k < c.items.length := fun hc => by
        obtain ⟨y, hy, e⟩ := findPos_lt.mp hc; exact h y hy e
      have h2 : c.findPos key k ≤ c.items.length := List.findIdx_le_length
      omega
    unfold Cont.idFind Cont.iteratorToId Cont.idEnd
    rw [hl]
    cases hra : c.kind.ra <;> simp

/-- `id_erase` of a valid id removes that element.  In a container of nodes the other ids keep
designating what they did, and the id erased designates nothing.  In a vector the ids before it do,
and every later element is moved to the previous id. -/
theorem idErase_spec {c : Cont α} (hw : c.WF key) {id : Int} {x : α} (h : c.at id = some x) :
    ∃ c', c.idErase id = some c' ∧ c'.WF key ∧ (x :: c'.values).Perm c.values ∧
      (c.kind.ra = false → c'.at id = none ∧ ∀ j, j ≠ id → c'.at j = c.at j) ∧
      (c.kind.ra = true → (∀ j, j < id → c'.at j = c.at j) ∧ ∀ j, id ≤ j → c'.at j = c.at (j + 1)) := by
  have key1 : ∃ i a, c.idToIterator id = some i ∧ c.items[i]? = some (a, x) ∧
      (c.kind.ra = false → id = (a : Int)) ∧ (c.kind.ra = true → id = (i : Int)) := by
    unfold Cont.idToIterator
    cases hra : c.kind.ra
    · obtain ⟨a, rfl, hm⟩ := (at_node hw.nodup hra).mp h
      obtain ⟨i, hi⟩ : ∃ i, c.items.findIdx? (fun p => (p.1 : Int) == a) = some i := by
        rcases he : c.items.findIdx? (fun p => (p.1 : Int) == a) with _ | i
        · rw [List.findIdx?_eq_none_iff] at he
          exact absurd (he _ hm) (by simp)
        · exact ⟨i, he⟩
      refine ⟨i, a, ?_, ?_, fun _ => rfl, fun hc => by simp at hc⟩
      · rw [if_neg (by simp), if_neg (by omega), hi]
      · obtain ⟨hl, hp, -⟩ := List.findIdx?_eq_some_iff_getElem.mp hi
        rw [List.getElem?_eq_getElem hl]
        have e : (c.items[i]).1 = a := Int.ofNat.inj (by simpa using hp)
        exact congrArg some (List.inj_on_of_nodup_map hw.nodup (List.getElem_mem hl) hm e)
    · obtain ⟨h0, e⟩ := (at_vec hra).mp h
      simp only [Cont.values, List.getElem?_map, Option.map_eq_some_iff] at e
      obtain ⟨⟨a, y⟩, e, rfl⟩ := e
      have hl := (List.getElem?_eq_some_iff.mp e).1
      refine ⟨id.toNat, a, ?_, e, fun hc => by simp at hc, fun _ => by omega⟩
      rw [if_pos rfl, if_pos ⟨h0, by omega⟩]
  obtain ⟨i, a, hi, he, hn, hr⟩ := key1
  have hl := (List.getElem?_eq_some_iff.mp he).1
  have hsub : (c.items.eraseIdx i).Sublist c.items := List.eraseIdx_sublist ..
  have hei : c.items[i] = (a, x) := (List.getElem?_eq_some_iff.mp he).2
  have hperm : ((a, x) :: c.items.eraseIdx i).Perm c.items := by
    rw [← hei]; exact List.getElem_cons_eraseIdx_perm hl
  refine ⟨{ c with items := c.items.eraseIdx i }, by simp [Cont.idErase, hi, hl], ?_, ?_, ?_, ?_⟩
  · refine ⟨hw.nodup.sublist (hsub.map _), fun p hp => hw.lt p (hsub.subset hp), ?_, ?_⟩
    · intro hu; exact (hw.uniq hu).sublist (hsub.map _)
    · intro hu; exact (hw.sorted hu).sublist (hsub.map _)
  · exact hperm.map Prod.snd
  · intro hra
    have hw' : ((c.items.eraseIdx i).map Prod.fst).Nodup := hw.nodup.sublist (hsub.map _)
    have hnot : ∀ y, (a, y) ∉ c.items.eraseIdx i := by
      intro y hy
      have := (hperm.map Prod.fst).nodup_iff.mpr hw.nodup
      rw [List.map_cons, List.nodup_cons] at this
      exact this.1 (List.mem_map.mpr ⟨_, hy, rfl⟩)
    constructor
    · rcases hc : ({ c with items := c.items.eraseIdx i } : Cont α).at id with _ | y
      · rfl
      · obtain ⟨b, e, hm⟩ := (at_node (c := { c with items := c.items.eraseIdx i }) hw' hra).mp hc
        rw [hn hra] at e
        have e : a = b := Int.ofNat.inj e
        subst e; exact absurd hm (hnot y)
    · intro j hj
      refine Option.ext fun y => ?_
      rw [at_node (c := { c with items := c.items.eraseIdx i }) hw' hra, at_node hw.nodup hra]
      constructor
      · rintro ⟨b, rfl, hm⟩; exact ⟨b, rfl, hsub.subset hm⟩
      · rintro ⟨b, rfl, hm⟩
        refine ⟨b, rfl, ?_⟩
        rcases List.mem_cons.mp (hperm.mem_iff.mpr hm) with e | hm
        · exact absurd (by rw [hn hra]; simp at e; rw [e.1]) hj
        · exact hm
  · intro hra
    have hid := hr hra
    have hat : ∀ (d : Cont α) j, d.kind.ra = true → 0 ≤ j →
        d.at j = (d.items[j.toNat]?).map Prod.snd := by
      intro d j hd h0; simp [Cont.at, hd, h0, Cont.values]
    have hneg : ∀ (d : Cont α) j, d.kind.ra = true → j < 0 → d.at j = none := by
      intro d j hd h0
      have : ¬ 0 ≤ j := by omega
      simp [Cont.at, hd, this]
    constructor
    · intro j hj
      by_cases h0 : 0 ≤ j
      · rw [hat ⟨c.kind, c.items.eraseIdx i, c.next⟩ j hra h0, hat c j hra h0]
        simp only []
        rw [List.getElem?_eraseIdx_of_lt (by omega)]
      · rw [hneg ⟨c.kind, c.items.eraseIdx i, c.next⟩ j hra (by omega), hneg c j hra (by omega)]
    · intro j hj
      rw [hat ⟨c.kind, c.items.eraseIdx i, c.next⟩ j hra (by omega), hat c (j + 1) hra (by omega)]
      simp only []
      rw [List.getElem?_eraseIdx_of_ge (by omega)]
      congr 2; omega

/-- A vector with `2^31` elements or more (up to `2^32`): the id returned for the new element is
negative, and no element can be reached by it. -/
theorem idEmplace_overflow_fails (ord : Order α) {c : Cont α} (hw : c.WF key) (hk : c.kind = .vec)
    (h1 : 2 ^ 31 ≤ c.items.length) (h2 : c.items.length < 2 ^ 32) (x : α) :
    (c.idEmplace key ord x).2.1 < 0 ∧
    (c.idEmplace key ord x).1.at (c.idEmplace key ord x).2.1 = none := by
  have ha : c.kind.assoc = false := by rw [hk]; rfl
  have hd : ¬(c.kind.unique = true ∧ ∃ y ∈ c.values, key y = key x) := by
    rw [hk]; simp [Kind.unique]
  have : (c.idEmplace key ord x).2.1 < 0 := by
    simp only [Cont.idEmplace, emplace_new ord hd, vec_inserted key ord x ha, vec_findIdx hw.lt]
    simp only [Cont.iteratorToId, hk, Kind.ra, if_true]
    unfold toInt; rw [Int.bmod_def]; omega
  refine ⟨this, ?_⟩
  have hra : (c.idEmplace key ord x).1.kind.ra = true := by
    simp only [Cont.idEmplace, emplace_kind, hk, Kind.ra]
  unfold Cont.at
  rw [if_pos hra, if_neg (by omega)]

/-- With `2^32` elements or more (up to `2^32 + 2^31`) the id of the new element is that of an element
already there. -/
theorem idEmplace_alias_fails (ord : Order α) {c : Cont α} (hw : c.WF key) (hk : c.kind = .vec)
    (h1 : 2 ^ 32 ≤ c.items.length) (h2 : c.items.length < 2 ^ 32 + 2 ^ 31) (x : α) :
    (c.idEmplace key ord x).2.1 = c.items.length - 2 ^ 32 ∧
    (c.at (c.idEmplace key ord x).2.1).isSome := by
  have ha : c.kind.assoc = false := by rw [hk]; rfl
  have hd : ¬(c.kind.unique = true ∧ ∃ y ∈ c.values, key y = key x) := by
    rw [hk]; simp [Kind.unique]
  have : (c.idEmplace key ord x).2.1 = c.items.length - 2 ^ 32 := by
    simp only [Cont.idEmplace, emplace_new ord hd, vec_inserted key ord x ha, vec_findIdx hw.lt]
    simp only [Cont.iteratorToId, hk, Kind.ra, if_true]
    unfold toInt; rw [Int.bmod_def]; omega
  refine ⟨this, ?_⟩
  rw [this]
  unfold Cont.at
  rw [if_pos (by rw [hk]; rfl), if_pos (by omega)]
  simp only [Option.isSome_iff_exists]
  exact ⟨_, List.getElem?_eq_getElem (by simp only [Cont.values, List.length_map]; omega)⟩

/-! Examples: a vector, a list, a set with a repeated element, a hashed set that reverses its order at
every insertion. -/

/-- Hashed containers that iterate from the last inserted element. -/
def newestFirst : Order Nat := ⟨fun _ l => l, fun _ l => List.Perm.refl l⟩

example : (emplaceAll id newestFirst (Cont.empty .vec) [7, 3, 7]).2 = [(0, true), (1, true), (2, true)] := by
  decide +kernel
example : (emplaceAll id newestFirst (Cont.empty .set) [7, 3, 7]).2 = [(0, true), (1, true), (0, false)] ∧
    (emplaceAll id newestFirst (Cont.empty .set) [7, 3, 7]).1.values = [3, 7] := by
  decide +kernel
example : (emplaceAll id newestFirst (Cont.empty .hashMultiset) [7, 3, 7]).2 =
      [(0, true), (1, true), (2, true)] ∧
    (emplaceAll id newestFirst (Cont.empty .hashMultiset) [7, 3, 7]).1.values = [7, 3, 7] := by
  decide +kernel
example : ((Cont.empty .list : Cont Nat)).WF id ∧ (Cont.empty .vec : Cont Nat).Fits :=
  ⟨Cont.WF.empty id _, fun _ => by simp [Cont.empty]⟩
/-- The hypotheses of the overflow are met by a vector of `n = 2^31` zeros. -/
example (n : Nat) : (⟨.vec, (List.range n).map fun i => (i, 0), n⟩ : Cont Nat).WF id := by
  refine ⟨?_, ?_, by simp [Kind.unique], by simp [Kind.sorted]⟩
  · simpa [List.map_map, Function.comp_def] using List.nodup_range
  · intro p hp
    obtain ⟨i, hi, rfl⟩ := List.mem_map.mp hp
    exact List.mem_range.mp hi

end Actl.Ids
