import Verif.Props.Ranges
import Verif.Model.Filtered

/-!
C144: programs over filtered ranges.
-/

namespace Actl.Ranges

variable {α : Type}

/-! ### Specification -/

/-- Where a program of moves (`true` forwards, `false` backwards) leads among `n` elements; `none` if it leaves them (the end, `n`, included). -/
def path (n : Nat) : Nat → List Bool → Option Nat
  | k, [] => some k
  | k, true :: ms => if k < n then path n (k + 1) ms else none
  | k, false :: ms => if 0 < k then path n (k - 1) ms else none

/-! ### Proofs -/

/-- The iterator `it` of `xs` filtered by `p` is the one of index `k`. -/
def AtIndex (p : α → Bool) (xs : List α) (k : Nat) (it : List α × List α) : Prop :=
  it.1.reverse ++ it.2 = xs ∧ (it.1.filter p).length = k ∧ ∀ x t, it.2 = x :: t → p x = true

theorem AtIndex.count {p : α → Bool} {xs : List α} {k : Nat} {it : List α × List α} (h : AtIndex p xs k it) :
    (xs.filter p).length = k + (it.2.filter p).length := by
  obtain ⟨h1, h2, _⟩ := h
  rw [← h1, List.filter_append, List.length_append, List.filter_reverse, List.length_reverse, h2]

theorem AtIndex.deref {p : α → Bool} {xs : List α} {k : Nat} {it : List α × List α} (h : AtIndex p xs k it) :
    fderef it = (xs.filter p)[k]? := by
  obtain ⟨h1, h2, h3⟩ := h
  rw [← h1, List.filter_append, List.filter_reverse, List.getElem?_append_right (by simp [h2])]
  have : k - (it.1.filter p).reverse.length = 0 := by simp [h2]
  rw [this]
  unfold fderef
  cases hr : it.2 with
  | nil => simp
  | cons x t => rw [List.filter_cons, if_pos (h3 x t hr)]; simp

theorem AtIndex.end_iff {p : α → Bool} {xs : List α} {k : Nat} {it : List α × List α} (h : AtIndex p xs k it) :
    it.2 = [] ↔ k = (xs.filter p).length := by
  rw [h.count]
  obtain ⟨h1, h2, h3⟩ := h
  cases hr : it.2 with
  | nil => simp
  | cons x t => rw [List.filter_cons, if_pos (h3 x t hr)]; simp

theorem AtIndex.unique {p : α → Bool} {xs : List α} {k l : Nat} {a b : List α × List α} (ha : AtIndex p xs k a)
    (hb : AtIndex p xs l b) : fsame a b = true ↔ k = l := by
  obtain ⟨a1, a2, a3⟩ := ha
  obtain ⟨b1, b2, b3⟩ := hb
  have mono : ∀ (c d : List α × List α), c.1.reverse ++ c.2 = xs → d.1.reverse ++ d.2 = xs →
      (∀ x t, c.2 = x :: t → p x = true) → d.2.length < c.2.length → (c.1.filter p).length < (d.1.filter p).length := by
    intro c d hc hd hp hlt
    cases hr : c.2 with
    | nil => rw [hr] at hlt; simp at hlt
    | cons x t =>
      rw [← hd, hr] at hc
      have hlen : c.1.reverse.length + (t.length + 1) = d.1.reverse.length + d.2.length := by
        have := congrArg List.length hc
        simpa using this
      rw [hr] at hlt
      simp only [List.length_cons] at hlt
      have ht := congrArg (List.take d.1.reverse.length) hc
      rw [List.take_left, List.take_append, List.take_of_length_le (by omega)] at ht
      have hpos : d.1.reverse.length - c.1.reverse.length = (d.1.reverse.length - c.1.reverse.length - 1) + 1 := by omega
      rw [hpos, List.take_succ_cons] at ht
      have := congrArg (fun l => (l.filter p).length) ht
      simp only [List.filter_append, List.length_append, List.filter_reverse, List.length_reverse, List.filter_cons,
        if_pos (hp x t hr), List.length_cons] at this
      omega
  unfold fsame
  rw [beq_iff_eq]
  constructor
  · intro h
    have := (List.append_inj' (a1.trans b1.symm) h).1
    rw [List.reverse_inj] at this
    rw [← a2, ← b2, this]
  · intro h
    subst h
    rcases Nat.lt_trichotomy a.2.length b.2.length with h | h | h
    · have := mono b a b1 a1 b3 h; omega
    · exact h
    · have := mono a b a1 b1 a3 h; omega

theorem atIndex_findNext (p : α → Bool) (xs b r : List α) (h : b.reverse ++ r = xs) :
    AtIndex p xs (b.filter p).length (findNext p b r) := by
  obtain ⟨sk, h1, h2, h3, h4⟩ := findNext_spec p b r
  refine ⟨?_, ?_, h4⟩
  · rw [h2, List.reverse_append, List.reverse_reverse, List.append_assoc, ← h3, h]
  · rw [h2, List.filter_append]
    have : sk.reverse.filter p = [] := List.filter_eq_nil_iff.mpr (fun y hy => by simp [h1 y (by simpa using hy)])
    rw [this, List.nil_append]

theorem atIndex_begin (p : α → Bool) (xs : List α) : AtIndex p xs 0 (fbegin p xs) := by
  unfold fbegin
  simpa using atIndex_findNext p xs [] xs (by simp)

theorem atIndex_end (p : α → Bool) (xs : List α) : AtIndex p xs (xs.filter p).length (fend p xs) := by
  have := atIndex_findNext p xs xs.reverse [] (by simp)
  rwa [List.filter_reverse, List.length_reverse] at this

theorem AtIndex.move {p : α → Bool} {xs : List α} {k : Nat} {it : List α × List α} (h : AtIndex p xs k it) (up : Bool) :
    match path (xs.filter p).length k [up] with
    | none => fmove p it up = none
    | some l => ∃ it', fmove p it up = some it' ∧ AtIndex p xs l it' := by
  have hend := h.end_iff
  have hcount := h.count
  obtain ⟨h1, h2, h3⟩ := h
  cases up with
  | true =>
    simp only [path, fmove, if_true]
    obtain ⟨b, r⟩ := it
    cases r with
    | nil =>
      have := hend.mp rfl
      rw [if_neg (by omega)]
      rfl
    | cons x t =>
      have hne : ¬ k = (xs.filter p).length := fun hk => by have := hend.mpr hk; simp at this
      rw [if_pos (by omega)]
      refine ⟨findNext p (x :: b) t, rfl, ?_⟩
      have := atIndex_findNext p xs (x :: b) t (by rw [← h1]; simp)
      simp only at h2
      rwa [List.filter_cons, if_pos (h3 x t rfl), List.length_cons, h2] at this
  | false =>
    simp only [path, fmove]
    obtain ⟨b, r⟩ := it
    simp only at h1 h2
    rcases fdec_spec p b r with hn | ⟨sk, x, b', e1, e2, e3, e4⟩
    · have hk : b.filter p = [] := List.filter_eq_nil_iff.mpr (fun y hy => by simp [hn y hy])
      rw [hk] at h2
      rw [if_neg (by simp at h2; omega)]
      have : ∀ (l r : List α), (∀ y ∈ l, p y = false) → fdec p l r = none := by
        intro l
        induction l with
        | nil => intro r _; rfl
        | cons y ys ih =>
          intro r hl
          rw [fdec, if_pos (by simp [hl y (by simp)])]
          exact ih _ (fun z hz => hl z (by simp [hz]))
      simpa using this b r hn
    · have hsk : sk.filter p = [] := List.filter_eq_nil_iff.mpr (fun y hy => by simp [e2 y hy])
      have hk : (b'.filter p).length + 1 = k := by
        rw [← h2, e1, List.filter_append, hsk, List.nil_append, List.filter_cons, if_pos e3, List.length_cons]
      rw [if_pos (by omega)]
      refine ⟨(b', x :: (sk.reverse ++ r)), by simpa using e4, ?_, ?_, ?_⟩
      · rw [← h1, e1]; simp
      · simp only; omega
      · intro y t hy
        injection hy with hy _
        rw [← hy]; exact e3

theorem AtIndex.moves {p : α → Bool} {xs : List α} {k : Nat} {it : List α × List α} (h : AtIndex p xs k it) (ms : List Bool) :
    match path (xs.filter p).length k ms with
    | none => fmoves p it ms = none
    | some l => ∃ it', fmoves p it ms = some it' ∧ AtIndex p xs l it' := by
  induction ms generalizing k it with
  | nil => exact ⟨it, rfl, h⟩
  | cons m ms ih =>
    have hm := h.move m
    cases m with
    | true =>
      simp only [path] at hm ⊢
      by_cases hk : k < (xs.filter p).length
      · rw [if_pos hk] at hm ⊢
        obtain ⟨it', e, h'⟩ := hm
        have := ih h'
        simpa only [fmoves, e, Option.bind_some] using this
      · rw [if_neg hk] at hm ⊢
        simp only [fmoves, hm, Option.bind_none]
    | false =>
      simp only [path] at hm ⊢
      by_cases hk : 0 < k
      · rw [if_pos hk] at hm ⊢
        obtain ⟨it', e, h'⟩ := hm
        have := ih h'
        simpa only [fmoves, e, Option.bind_some] using this
      · rw [if_neg hk] at hm ⊢
        simp only [fmoves, hm, Option.bind_none]

/-- **C144** Iterators of a filtered range move like indices of the list of the elements that satisfy the predicate: a program of `++` and `--` from `begin()`
is undefined exactly if it leaves this list, and otherwise the iterator is at the element with the index that it leads to. -/
theorem filtered_moves (p : α → Bool) (xs : List α) (ms : List Bool) :
    (fmoves p (fbegin p xs) ms).map fderef = (path (xs.filter p).length 0 ms).map fun k => (xs.filter p)[k]? := by
  have h := (atIndex_begin p xs).moves ms
  cases hp : path (xs.filter p).length 0 ms with
  | none => rw [hp] at h; simp only at h; rw [h]; rfl
  | some k =>
    rw [hp] at h
    obtain ⟨it, e, h'⟩ := h
    rw [e, Option.map_some, Option.map_some, h'.deref]

/-- **C144** Two iterators are equal exactly if their programs of moves lead to the same index; an iterator equals `end()` exactly if its program leads behind the
last element. -/
theorem filtered_equal (p : α → Bool) (xs : List α) (ms ns : List Bool) {k l : Nat} {a b : List α × List α}
    (hk : path (xs.filter p).length 0 ms = some k) (hl : path (xs.filter p).length 0 ns = some l)
    (ha : fmoves p (fbegin p xs) ms = some a) (hb : fmoves p (fbegin p xs) ns = some b) :
    (fsame a b = true ↔ k = l) ∧ (fsame a (fend p xs) = true ↔ k = (xs.filter p).length) := by
  have h1 := (atIndex_begin p xs).moves ms
  have h2 := (atIndex_begin p xs).moves ns
  rw [hk] at h1
  rw [hl] at h2
  obtain ⟨a', e1, h1⟩ := h1
  obtain ⟨b', e2, h2⟩ := h2
  rw [ha] at e1
  rw [hb] at e2
  cases e1; cases e2
  exact ⟨h1.unique h2, h1.unique (atIndex_end p xs)⟩

/-- **C144** `empty()`, `front()` and `back()` are those of the list of the elements that satisfy the predicate; `front()` and `back()` of an empty range are reported. -/
theorem filtered_members (p : α → Bool) (xs : List α) :
    fempty p xs = (xs.filter p).isEmpty ∧ ffront p xs = (xs.filter p).head? ∧ fback p xs = (xs.filter p).getLast? := by
  have hb := atIndex_begin p xs
  have he := atIndex_end p xs
  have hem : fempty p xs = (xs.filter p).isEmpty := by
    have := hb.unique he
    rw [Bool.eq_iff_iff, List.isEmpty_iff_length_eq_zero]
    exact this.trans eq_comm
  refine ⟨hem, ?_, ?_⟩
  · unfold ffront
    rw [hem, hb.deref]
    cases hx : xs.filter p with
    | nil => simp
    | cons y ys => simp
  · unfold fback
    rw [hem]
    cases hx : xs.filter p with
    | nil => simp
    | cons y ys =>
      have hm := he.move false
      simp only [path, fmove, hx, List.length_cons, Nat.zero_lt_succ, if_true] at hm
      obtain ⟨it', e, h'⟩ := hm
      simp only [Bool.false_eq_true, if_false] at e
      rw [if_neg (by simp), e, Option.bind_some, h'.deref, hx, List.getLast?_eq_getElem?]
      simp

/-! ### A filtered range of a filtered range -/

theorem findNext2_spec (p q : α → Bool) (e : List α × List α) (he : e.2 = []) :
    ∀ (n : Nat) (b r : List α), (∀ x t, r = x :: t → p x = true) → r.length < n →
      ∃ b' r', findNext2 p q e n (b, r) = some (b', r') ∧ (∀ x t, r' = x :: t → p x = true ∧ q x = true) ∧
        r'.filter (fun x => p x && q x) = r.filter (fun x => p x && q x) ∧ r'.length ≤ r.length := by
  intro n
  induction n with
  | zero => intro b r _ h; omega
  | succ n ih =>
    intro b r hp hn
    rw [findNext2]
    cases r with
    | nil =>
      rw [if_pos (by simp [fsame, he])]
      exact ⟨b, [], rfl, by simp, rfl, by simp⟩
    | cons x t =>
      rw [if_neg (by simp [fsame, he])]
      simp only [fderef, List.head?_cons]
      have hpx := hp x t rfl
      by_cases hq : q x = true
      · rw [if_pos hq]
        refine ⟨b, x :: t, rfl, ?_, rfl, Nat.le_refl _⟩
        intro y s hy
        injection hy with hy _
        rw [← hy]; exact ⟨hpx, hq⟩
      · rw [if_neg hq]
        simp only [finc, Option.bind_some]
        obtain ⟨sk, h1, h2, h3, h4⟩ := findNext_spec p (x :: b) t
        have hlen := findNext_length p (x :: b) t
        simp only [List.length_cons] at hn
        obtain ⟨b', r', f1, f2, f3, f4⟩ := ih (findNext p (x :: b) t).1 (findNext p (x :: b) t).2 h4 (by omega)
        refine ⟨b', r', f1, f2, ?_, by simp only [List.length_cons]; omega⟩
        rw [f3]
        have hsk : sk.filter (fun x => p x && q x) = [] := List.filter_eq_nil_iff.mpr (fun y hy => by simp [h1 y hy])
        conv_rhs => rw [h3, List.filter_cons, if_neg (by simp [hq]), List.filter_append, hsk, List.nil_append]

theorem fwalk2_spec (p q : α → Bool) (e : List α × List α) (he : e.2 = []) (n : Nat) :
    ∀ (fuel : Nat) (b r : List α), (∀ x t, r = x :: t → p x = true ∧ q x = true) → r.length < fuel → r.length ≤ n →
      fwalk2 p q e n fuel (b, r) = some (r.filter fun x => p x && q x) := by
  intro fuel
  induction fuel with
  | zero => intro b r _ h; omega
  | succ fuel ih =>
    intro b r hpq hf hn
    rw [fwalk2]
    cases r with
    | nil => rw [if_pos (by simp [fsame, he])]; rfl
    | cons x t =>
      rw [if_neg (by simp [fsame, he])]
      simp only [fderef, List.head?_cons, finc, Option.bind_some]
      obtain ⟨sk, h1, h2, h3, h4⟩ := findNext_spec p (x :: b) t
      have hlen := findNext_length p (x :: b) t
      simp only [List.length_cons] at hf hn
      obtain ⟨b', r', f1, f2, f3, f4⟩ :=
        findNext2_spec p q e he n (findNext p (x :: b) t).1 (findNext p (x :: b) t).2 h4 (by omega)
      rw [f1, Option.bind_some, ih b' r' f2 (by omega) (by omega), Option.map_some, f3]
      have hsk : sk.filter (fun x => p x && q x) = [] := List.filter_eq_nil_iff.mpr (fun y hy => by simp [h1 y hy])
      conv_rhs => rw [List.filter_cons, if_pos (by simp [(hpq x t rfl).1, (hpq x t rfl).2]), h3, List.filter_append, hsk, List.nil_append]

/-- **C144** A loop over `filter_range(filter_range(xs, p), q)` ends and meets exactly the elements that satisfy both predicates, in order. -/
theorem filtered_nested (p q : α → Bool) (xs : List α) :
    nested p q xs = some (xs.filter fun x => p x && q x) := by
  have he : (fend p xs).2 = [] := by simp [fend, findNext]
  obtain ⟨sk, h1, h2, h3, h4⟩ := findNext_spec p [] xs
  have hlen := findNext_length p [] xs
  obtain ⟨b', r', f1, f2, f3, f4⟩ :=
    findNext2_spec p q (fend p xs) he (xs.length + 1) (findNext p [] xs).1 (findNext p [] xs).2 h4 (by omega)
  unfold nested fbegin
  rw [f1, Option.bind_some, fwalk2_spec p q (fend p xs) he _ _ b' r' f2 (by omega) (by omega), f3]
  have hsk : sk.filter (fun x => p x && q x) = [] := List.filter_eq_nil_iff.mpr (fun y hy => by simp [h1 y hy])
  conv_rhs => rw [h3, List.filter_append, hsk, List.nil_append]

/-! ### Loops that assign -/

theorem floop_spec (p : α → Bool) (f : α → α) (e : List α × List α) (he : e.2 = []) :
    ∀ (fuel : Nat) (b r : List α), (∀ x t, r = x :: t → p x = true) → r.length < fuel →
      floop p f e fuel (b, r) = some (b.reverse ++ r.map fun x => if p x then f x else x) := by
  intro fuel
  induction fuel with
  | zero => intro b r _ h; omega
  | succ fuel ih =>
    intro b r hp hf
    rw [floop]
    cases r with
    | nil => rw [if_pos (by simp [fsame, he])]; simp
    | cons x t =>
      rw [if_neg (by simp [fsame, he])]
      simp only [fassign, finc, Option.bind_some]
      obtain ⟨sk, h1, h2, h3, h4⟩ := findNext_spec p (f x :: b) t
      have hlen := findNext_length p (f x :: b) t
      simp only [List.length_cons] at hf
      have := ih (findNext p (f x :: b) t).1 (findNext p (f x :: b) t).2 h4 (by omega)
      rw [show floop p f e fuel (findNext p (f x :: b) t) =
        floop p f e fuel ((findNext p (f x :: b) t).1, (findNext p (f x :: b) t).2) from rfl, this, h2]
      have hsk : (sk.map fun x => if p x then f x else x) = sk := by
        conv_rhs => rw [← List.map_id sk]
        exact List.map_congr_left (fun y hy => by simp [h1 y hy])
      conv_rhs => rw [List.map_cons, if_pos (hp x t rfl), h3, List.map_append, hsk]
      simp

/-- **C144** A loop over a filtered range may assign to its elements, whether or not they satisfy the predicate afterwards: it changes exactly the elements that
satisfied the predicate at the beginning, each once. -/
theorem filtered_assign (p : α → Bool) (f : α → α) (xs : List α) :
    floop p f (fend p xs) (xs.length + 1) (fbegin p xs) = some (xs.map fun x => if p x then f x else x) := by
  obtain ⟨sk, h1, h2, h3, h4⟩ := findNext_spec p [] xs
  have hlen := findNext_length p [] xs
  have := floop_spec p f (fend p xs) (by simp [fend, findNext]) (xs.length + 1) (findNext p [] xs).1 (findNext p [] xs).2 h4 (by omega)
  unfold fbegin
  rw [show floop p f (fend p xs) (xs.length + 1) (findNext p [] xs) =
    floop p f (fend p xs) (xs.length + 1) ((findNext p [] xs).1, (findNext p [] xs).2) from rfl, this, h2]
  have hsk : (sk.map fun x => if p x then f x else x) = sk := by
    conv_rhs => rw [← List.map_id sk]
    exact List.map_congr_left (fun y hy => by simp [h1 y hy])
  conv_rhs => rw [h3, List.map_append, hsk]
  simp

theorem floopBack_spec (p : α → Bool) (f : α → α) (xs : List α) :
    ∀ (fuel k : Nat) (b r0 r : List α), AtIndex p xs k (b, r0) → r.length = r0.length → b.length < fuel →
      floopBack p f (some (fbegin p xs)) fuel (b, r) = some ((b.reverse.map fun x => if p x then f x else x) ++ r) := by
  intro fuel
  induction fuel with
  | zero => intro k b r0 r _ _ h; omega
  | succ fuel ih =>
    intro k b r0 r h hr hf
    rw [floopBack]
    have hs : fsame (b, r) (fbegin p xs) = fsame (b, r0) (fbegin p xs) := by simp [fsame, hr]
    have hk := h.unique (atIndex_begin p xs)
    simp only [hs]
    have h2 : (b.filter p).length = k := h.2.1
    by_cases hz : k = 0
    · rw [if_pos (hk.mpr hz)]
      have hb : b.filter p = [] := List.length_eq_zero_iff.mp (by omega)
      have hid : (b.reverse.map fun x => if p x then f x else x) = b.reverse := by
        conv_rhs => rw [← List.map_id b.reverse]
        refine List.map_congr_left (fun y hy => ?_)
        have := List.filter_eq_nil_iff.mp hb y (by simpa using hy)
        simp [this]
      rw [hid]
    · rw [if_neg (fun hc => hz (hk.mp hc))]
      rcases fdec_spec p b r with hn | ⟨sk, x, b', e1, e2, e3, e4⟩
      · have hb : b.filter p = [] := List.filter_eq_nil_iff.mpr (fun y hy => by simp [hn y hy])
        rw [hb] at h2
        exact absurd h2.symm (by simpa using hz)
      · simp only [e4, Option.bind_some, fassign]
        have hsk : sk.filter p = [] := List.filter_eq_nil_iff.mpr (fun y hy => by simp [e2 y hy])
        have h' : AtIndex p xs (b'.filter p).length (b', x :: (sk.reverse ++ r0)) := by
          refine ⟨?_, rfl, ?_⟩
          · rw [← h.1, e1]; simp
          · intro y t hy
            injection hy with hy _
            rw [← hy]; exact e3
        rw [ih _ b' (x :: (sk.reverse ++ r0)) (f x :: (sk.reverse ++ r)) h' (by simp [hr])
          (by rw [e1] at hf; simp only [List.length_append, List.length_cons] at hf; omega)]
        have hid : (sk.reverse.map fun x => if p x then f x else x) = sk.reverse := by
          conv_rhs => rw [← List.map_id sk.reverse]
          exact List.map_congr_left (fun y hy => by simp [e2 y (by simpa using hy)])
        rw [e1, List.reverse_append, List.reverse_cons, List.map_append, List.map_append, hid]
        simp [e3]

/-- **C144** The same holds of a loop from `end()` back to `begin()`, if `begin()` is taken before the loop. -/
theorem filtered_assign_back (p : α → Bool) (f : α → α) (xs : List α) :
    floopBack p f (some (fbegin p xs)) (xs.length + 1) (fend p xs) = some (xs.map fun x => if p x then f x else x) := by
  have he : fend p xs = (xs.reverse, []) := by simp [fend, findNext]
  have hat := atIndex_end p xs
  rw [he] at hat ⊢
  rw [floopBack_spec p f xs _ _ xs.reverse [] [] hat rfl (by simp)]
  simp

/-- **C144**, the negation for a loop that takes `begin()` anew for every comparison: if the new values do not satisfy the predicate and at least one old value
does, it never ends properly: it goes back beyond the beginning of the original range. -/
theorem filtered_back_fails (p : α → Bool) (f : α → α) (hf : ∀ x, p (f x) = false) (xs : List α) (hx : xs.filter p ≠ []) (fuel : Nat) :
    floopBack p f none fuel (fend p xs) = none := by
  have key : ∀ (fuel : Nat) (b r : List α), (∀ y ∈ r, p y = false) → (r ≠ [] ∨ ∃ y ∈ b, p y = true) →
      floopBack p f none fuel (b, r) = none := by
    intro fuel
    induction fuel with
    | zero => intro b r _ _; rfl
    | succ fuel ih =>
      intro b r hr hor
      rw [floopBack]
      simp only
      have hns : ¬ fsame (b, r) (fbegin p (b.reverse ++ r)) = true := by
        intro hs
        obtain ⟨sk, h1, h2, h3, h4⟩ := findNext_spec p [] (b.reverse ++ r)
        unfold fsame fbegin at hs
        rw [beq_iff_eq] at hs
        obtain ⟨g1, g2⟩ := List.append_inj' h3 hs
        rcases hor with hne | ⟨y, hy, hpy⟩
        · cases hrr : r with
          | nil => exact hne hrr
          | cons z t =>
            have hz := h4 z t (by rw [← g2]; exact hrr)
            have := hr z (by rw [hrr]; simp)
            rw [hz] at this; cases this
        · have := h1 y (by rw [← g1]; simpa using hy)
          rw [hpy] at this; cases this
      rw [if_neg hns]
      rcases fdec_spec p b r with hn | ⟨sk, x, b', e1, e2, e3, e4⟩
      · have : ∀ (l r : List α), (∀ y ∈ l, p y = false) → fdec p l r = none := by
          intro l
          induction l with
          | nil => intro r _; rfl
          | cons y ys ih =>
            intro r hl
            rw [fdec, if_pos (by simp [hl y (by simp)])]
            exact ih _ (fun z hz => hl z (by simp [hz]))
        rw [this b r hn]; rfl
      · simp only [e4, Option.bind_some, fassign]
        refine ih b' _ ?_ (Or.inl (by simp))
        intro y hy
        simp only [List.mem_cons, List.mem_append, List.mem_reverse] at hy
        rcases hy with rfl | hy | hy
        · exact hf x
        · exact e2 y hy
        · exact hr y hy
  have he : fend p xs = (xs.reverse, []) := by simp [fend, findNext]
  rw [he]
  refine key fuel xs.reverse [] (by simp) (Or.inr ?_)
  obtain ⟨y, hy⟩ := List.exists_mem_of_ne_nil _ hx
  exact ⟨y, by simpa using (List.mem_filter.mp hy).1, (List.mem_filter.mp hy).2⟩

/-! Concrete cases: the even numbers of 1, 2, 4, 5, 7, 8, 9. -/

example : (fmoves (fun x : Nat => x % 2 == 0) (fbegin (fun x => x % 2 == 0) [1, 2, 4, 5, 7, 8, 9]) [true, true, false]).map fderef =
    some (some 4) ∧ path 3 0 [true, true, false] = some 1 := by decide
example : fmoves (fun x : Nat => x % 2 == 0) (fbegin (fun x => x % 2 == 0) [1, 2, 4, 5]) [true, false, false] = none := by decide
example : ffront (fun x : Nat => x % 2 == 0) [1, 2, 4, 5, 8, 9] = some 2 ∧ fback (fun x : Nat => x % 2 == 0) [1, 2, 4, 5, 8, 9] = some 8 ∧
    fback (fun x : Nat => x % 2 == 0) [1, 9] = none := by decide
example : nested (fun x : Nat => x % 2 == 0) (fun x => x % 3 == 0) [1, 2, 6, 5, 12, 3] = some [6, 12] := by decide
example : floop (fun x : Nat => x % 2 == 0) (· + 1) (fend (fun x => x % 2 == 0) [1, 2, 4, 5]) 5 (fbegin (fun x => x % 2 == 0) [1, 2, 4, 5]) =
    some [1, 3, 5, 5] := by decide
example (fuel : Nat) : floopBack (fun x : Nat => x % 2 == 0) (fun _ => 7) none fuel (fend (fun x => x % 2 == 0) [1, 2]) = none :=
  filtered_back_fails (fun x : Nat => x % 2 == 0) (fun _ => 7) (fun _ => rfl) [1, 2] (by decide) fuel

end Actl.Ranges
