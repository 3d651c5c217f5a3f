import Verif.Spec.ReadProgress
import Verif.Props.TextTree

/-!
C149: what is read successfully has been in the input.
-/

namespace Actl.TextTree

open Actl.Text

variable {c : Cfg} {r : Reader}

/-- From `s` to `s'` at least `k` characters have been consumed. -/
def Eats (k : Nat) (s s' : RSt) : Prop := s'.d <:+ s.d ∧ k + s'.d.length ≤ s.d.length

theorem Eats.trans {a b : Nat} {s s' s'' : RSt} (h : Eats a s s') (h' : Eats b s' s'') : Eats (a + b) s s'' :=
  ⟨h'.1.trans h.1, by have := h.2; have := h'.2; omega⟩

theorem Eats.refl (s : RSt) : Eats 0 s s := ⟨List.suffix_refl _, by simp⟩

theorem enter_eats {s s' : RSt} {ok : Bool} (h : enter c r s = some (ok, s')) : Eats 0 s s' := by
  cases r with
  | skipws =>
    simp only [enter, Option.some.injEq, Prod.mk.injEq] at h
    rw [← h.2]
    exact Eats.refl s
  | spaced =>
    simp only [enter, Option.map_eq_some_iff, Prod.mk.injEq] at h
    obtain ⟨p, -, -, rfl⟩ := h
    exact ⟨List.drop_suffix _ _, by simp⟩

theorem enterLeaf_eats {s s' : RSt} {ok : Bool} (h : enterLeaf c r s = some (ok, s')) : Eats 0 s s' := by
  cases r with
  | skipws =>
    simp only [enterLeaf, Option.some.injEq, Prod.mk.injEq] at h
    rw [← h.2]
    exact ⟨List.dropWhile_suffix _, by simpa using (List.dropWhile_suffix (p := isSpace) (l := s.d)).length_le⟩
  | spaced =>
    rw [enterLeaf] at h
    exact enter_eats h

theorem leaf_eats {α : Type} {parse : List (List Byte) → Option (Nat × Option α)} {k : α → Nat}
    (hp : ∀ d n v, parse (buffers d) = some (n, some v) → k v ≤ n ∧ k v ≤ d.length) {x v : α} {s s' : RSt}
    (h : readLeaf c r parse x s = some (true, v, s')) : Eats (k v) s s' := by
  simp only [readLeaf, Option.bind_eq_some_iff] at h
  obtain ⟨⟨ok, e⟩, h1, h⟩ := h
  cases ok with
  | false => simp at h
  | true =>
    simp only [if_true, Option.map_eq_some_iff, Prod.mk.injEq] at h
    obtain ⟨⟨n, o⟩, h2, h3, h4, rfl⟩ := h
    cases o with
    | none => simp at h3
    | some v' =>
      simp only [Option.getD_some] at h4
      subst h4
      have h5 := hp _ _ _ h2
      have := (enterLeaf_eats h1).trans (b := k v') (s'' := { e with d := e.d.drop n })
        ⟨List.drop_suffix _ _, by simp only [List.length_drop]; omega⟩
      simpa using this

/-- The integer parser is not ready before it has consumed a character. -/
theorem intParse_none {w b : Nat} {signed : Bool} {a : Byte} {d : List Byte} {st : IntText.IntSt}
    (h : IntText.intParse w signed (.init b) (a :: d) = some (0, st)) : IntText.intReady st = false := by
  simp only [IntText.intParse, IntText.IntSt.init, IntText.signParse] at h
  split at h
  · simp at h
  rename_i i ng hs
  have hi : i = 0 := by
    by_contra hi
    split at h
    · simp only [Option.some.injEq, Prod.mk.injEq] at h
      omega
    · simp only [IntText.stepSign, IntText.stepValue] at h
      split at h
      · simp at h
      · split at h
        · simp only [Option.some.injEq, Prod.mk.injEq] at h
          omega
        · split at h
          · simp at h
          · simp only [Option.some.injEq, Prod.mk.injEq] at h
            omega
  subst hi
  rw [List.length_cons, if_neg (by omega)] at h
  simp only [List.drop_zero, IntText.stepSign, IntText.baseParse] at h
  by_cases ha : a = lit '0'
  · subst ha
    have hz : ∀ s : IntText.BaseSt, 1 ≤ (IntText.baseZero s 1 d).1 := by
      intro s
      unfold IntText.baseZero
      split
      · exact Nat.le_refl _
      · simp only
        split <;> simp
    have := hz ⟨.zero, b⟩
    simp only [if_true, IntText.stepValue] at h
    split at h
    · simp only [Option.some.injEq, Prod.mk.injEq] at h
      omega
    · split at h
      · simp at h
      · simp only [Option.some.injEq, Prod.mk.injEq] at h
        omega
  · simp only [ha, if_false, IntText.stepValue, IntText.uintParse, List.drop_zero] at h
    simp at h
    split at h
    · simp at h
    · rename_i k inner hk
      simp only [Option.some.injEq, Prod.mk.injEq] at h
      obtain ⟨rfl, rfl⟩ := h
      split at hk
      · simp at hk
      · simp only [Option.some.injEq, Prod.mk.injEq, true_and] at hk
        rw [← hk]
        rfl

theorem readInt_eats {w b : Nat} {signed : Bool} (d : List Byte) (n : Nat) (v : Int) (h : IntText.readInt w signed b (buffers d) = some (n, some v)) :
    1 ≤ n ∧ 1 ≤ d.length := by
  cases d with
  | nil => simp [buffers, IntText.readInt, Parser.exec, IntText.intReady, IntText.IntSt.init] at h
  | cons a d =>
    refine ⟨?_, by simp⟩
    simp only [buffers, reduceCtorEq, if_false, IntText.readInt] at h
    split at h
    · simp at h
    rename_i m st hm
    simp only [Option.some.injEq, Prod.mk.injEq] at h
    obtain ⟨rfl, h⟩ := h
    split at h
    · rename_i hr
      by_contra hn
      obtain rfl : m = 0 := by omega
      simp only [Parser.exec, List.isEmpty_cons, Bool.false_eq_true, if_false] at hm
      split at hm
      · simp at hm
      rename_i o st' hp
      split at hm
      · simp only [Option.some.injEq, Prod.mk.injEq] at hm
        rename_i ho
        rw [List.length_cons] at ho
        omega
      · simp only [Option.some.injEq, Prod.mk.injEq] at hm
        obtain ⟨rfl, rfl⟩ := hm
        rw [intParse_none hp] at hr
        simp at hr
    · simp at h

theorem readBool_eats {alpha : Bool} (d : List Byte) (n : Nat) (v : Bool) (h : Parser.readBool alpha (buffers d) = some (n, some v)) :
    1 ≤ n ∧ 1 ≤ d.length := by
  cases d with
  | nil => simp [buffers, Parser.readBool, Parser.exec, Parser.boolReady, Parser.BoolSt.init] at h
  | cons a d =>
    refine ⟨?_, by simp⟩
    have hne := buffers_ne (a :: d)
    cases alpha with
    | true =>
      obtain ⟨n', v', h1, -, -, h2, h3⟩ := Parser.readBool_alpha (buffers (a :: d)) hne
      rw [h] at h1
      simp only [Option.some.injEq, Prod.mk.injEq] at h1
      obtain ⟨rfl, rfl⟩ := h1
      cases v with
      | true => have := h2 rfl; omega
      | false => have := h3 rfl; omega
    | false =>
      rw [Parser.readBool_numeric (buffers (a :: d)) hne] at h
      simp only [Option.some.injEq] at h
      split at h
      · simp only [Prod.mk.injEq] at h
        omega
      · split at h
        · simp only [Prod.mk.injEq] at h
          omega
        · simp at h

theorem readWord_eats {old : List Byte} (d : List Byte) (n : Nat) (v : List Byte) (h : readWord old (buffers d) = some (n, some v)) :
    v.length ≤ n ∧ v.length ≤ d.length := by
  rw [readWord_eq] at h
  simp only [Option.some.injEq, Prod.mk.injEq] at h
  obtain ⟨rfl, rfl⟩ := h
  exact ⟨Nat.le_refl _, (List.takeWhile_prefix _).length_le⟩

theorem char_eats {x v : Byte} {s s' : RSt} (h : readChar c r x s = some (true, v, s')) : Eats 1 s s' := by
  simp only [readChar, Option.map_eq_some_iff] at h
  obtain ⟨⟨ok, e⟩, h1, h⟩ := h
  cases ok with
  | false => simp at h
  | true =>
    simp only [if_true, Prod.mk.injEq, Bool.not_eq_true'] at h
    obtain ⟨h2, -, rfl⟩ := h
    have : 0 < e.d.length := by
      rw [List.length_pos_iff]
      rintro h
      simp [h] at h2
    simpa using (enterLeaf_eats h1).trans (b := 1) (s'' := { e with d := e.d.drop 1 })
      ⟨List.drop_suffix _ _, by simp only [List.length_drop]; omega⟩

theorem nested_eats {α : Type} {rd : RSt → Option (Bool × α × RSt)} {k : α → Nat} (hr : ∀ s v s', rd s = some (true, v, s') → Eats (k v) s s')
    {x v : α} {s s' : RSt} (h : nested c r rd x s = some (true, v, s')) : Eats (k v) s s' := by
  simp only [nested, Option.bind_eq_some_iff] at h
  obtain ⟨⟨ok, e⟩, h1, h⟩ := h
  cases ok with
  | false => simp at h
  | true =>
    simp only [if_true, Option.map_eq_some_iff, Prod.mk.injEq] at h
    obtain ⟨⟨ok, v', s1⟩, h2, rfl, rfl, rfl⟩ := h
    have := (enter_eats (s' := e) h1).trans (hr (e.level true) _ _ h2)
    simpa [Eats, RSt.level] using this

theorem size_eats {v : Int} {s s' : RSt} (h : readSize c r s = some (true, v, s')) : Eats 1 s s' :=
  nested_eats (k := fun _ => 1) (fun _ _ _ h => leaf_eats (k := fun _ => 1) readInt_eats h) h

theorem range_eats {α : Type} {rd : α → RSt → Option (Bool × α × RSt)} {k : α → Nat} {ys l : List α}
    (hr : ∀ y ∈ ys, ∀ s v s', rd y s = some (true, v, s') → Eats (k v) s s') {s s' : RSt} (h : readRange rd ys s = some (true, l, s')) :
    Eats (l.map k).sum s s' := by
  induction ys generalizing l s with
  | nil =>
    simp only [readRange, Option.some.injEq, Prod.mk.injEq, true_and] at h
    obtain ⟨rfl, rfl⟩ := h
    exact Eats.refl s
  | cons y ys ih =>
    rw [readRange, Option.bind_eq_some_iff] at h
    obtain ⟨⟨ok1, v, s1⟩, e1, e⟩ := h
    cases ok1 with
    | false => simp at e
    | true =>
      simp only [if_true, Option.map_eq_some_iff, Prod.mk.injEq] at e
      obtain ⟨⟨ok', l', s2'⟩, e2, rfl, rfl, rfl⟩ := e
      simpa using (hr y (by simp) _ _ _ e1).trans (ih (fun z hz => hr z (by simp [hz])) e2)

theorem emplace_eats {α : Type} {rd : α → RSt → Option (Bool × α × RSt)} {k : α → Nat} {fresh : α}
    (hr : ∀ s v s', rd fresh s = some (true, v, s') → Eats (k v) s s') {n : Nat} {acc l : List α} {s s' : RSt}
    (h : readEmplace rd fresh n acc s = some (true, l, s')) : ∃ l', l = acc ++ l' ∧ Eats (l'.map k).sum s s' := by
  induction n generalizing acc s with
  | zero =>
    simp only [readEmplace, Option.some.injEq, Prod.mk.injEq, true_and] at h
    obtain ⟨rfl, rfl⟩ := h
    exact ⟨[], by simp, Eats.refl s⟩
  | succ n ih =>
    rw [readEmplace, Option.bind_eq_some_iff] at h
    obtain ⟨⟨ok1, v, s1⟩, e1, e⟩ := h
    cases ok1 with
    | false => simp at e
    | true =>
      obtain ⟨l', rfl, hl⟩ := ih (by simpa using e)
      exact ⟨v :: l', by simp, by simpa using (hr _ _ _ e1).trans hl⟩

theorem container_eats {α : Type} {el : Nat → RSt → Option (Bool × List α × RSt)} {k : List α → Nat}
    (hr : ∀ n s v s', el n s = some (true, v, s') → Eats (k v) s s') {old v : List α} {s s' : RSt}
    (h : readContainer c r old el s = some (true, v, s')) : Eats (1 + k v) s s' := by
  rw [readContainer, Option.bind_eq_some_iff] at h
  obtain ⟨⟨ok, n, s1⟩, e1, e⟩ := h
  cases ok with
  | false => simp at e
  | true => exact (size_eats e1).trans (hr _ _ _ _ (by simpa using e))

theorem least_flatMap (t : Ty) (l : List (Val t)) : ((List.flatMap (tokens t) l).map Token.least).sum = (l.map (least t)).sum := by
  induction l with
  | nil => rfl
  | cons x l ih => simp [least, ih]

mutual

theorem read_eats (t : Ty) (x v : Val t) (hx : Ready t x) (s s' : RSt) (h : read c r t x s = some (true, v, s')) : Eats (least t v) s s' := by
  match t with
  | .int w sg =>
    rw [read] at h
    exact leaf_eats (k := fun _ => 1) readInt_eats h
  | .bool =>
    rw [read] at h
    exact leaf_eats (k := fun _ => 1) readBool_eats h
  | .char =>
    rw [read] at h
    exact char_eats h
  | .str =>
    rw [read] at h
    have := leaf_eats (k := List.length) readWord_eats h
    simpa [least, tokens, Token.least] using this
  | .tuple ts =>
    rw [read] at h
    rw [Ready] at hx
    have := nested_eats (k := fun v => ((tokensTuple ts v).map Token.least).sum) (fun s v s' h => readTuple_eats ts x v hx s s' h) h
    cases ts with
    | nil => simpa [least, tokens, tokensTuple, Token.least] using this
    | cons t ts => simpa [least, tokens, tokensTuple] using this
  | .array n t =>
    rw [read] at h
    rw [Ready] at hx
    have := nested_eats (k := fun v : List (Val t) => (v.map (least t)).sum)
      (fun s v s' h => range_eats (fun y hy s v s' h => read_eats t y v (hx.2 y hy) s s' h) h) h
    rw [least, tokens]
    split
    · exact ⟨this.1, by have := this.2; simp [Token.least]; omega⟩
    · have e := least_flatMap t v
      rw [e]
      exact this
  | .vec t =>
    rw [read] at h
    rw [Ready] at hx
    have := nested_eats (k := fun v : List (Val t) => 1 + (v.map (least t)).sum)
      (fun s v s' h => container_eats (k := fun v : List (Val t) => (v.map (least t)).sum) (fun n s v s' h => by
        rw [Option.bind_eq_some_iff] at h
        obtain ⟨xs, h1, h2⟩ := h
        refine range_eats (fun y hy s v s' h => read_eats t y v ?_ s s' h) h2
        unfold resize at h1
        split at h1
        · simp only [Option.some.injEq] at h1
          rw [← h1, List.mem_append] at hy
          rcases hy with hy | hy
          · exact hx y (List.mem_of_mem_take hy)
          · rw [List.mem_replicate] at hy
            rw [hy.2]
            exact ready_default t
        · simp at h1) h) h
    have e := least_flatMap t v
    rw [least, tokens, List.map_cons, List.sum_cons, e]
    exact this
  | .seq t =>
    rw [read] at h
    rw [Ready] at hx
    have := nested_eats (k := fun v : List (Val t) => 1 + (v.map (least t)).sum)
      (fun s v s' h => container_eats (k := fun v : List (Val t) => (v.map (least t)).sum) (fun n s v s' h => by
        obtain ⟨l', h1, h2⟩ := emplace_eats (k := least t) (fun s v s' h => read_eats t _ v (ready_default t) s s' h) h
        rw [hx] at h1
        simp only [List.nil_append] at h1
        rw [h1]
        exact h2) h) h
    have e := least_flatMap t v
    rw [least, tokens, List.map_cons, List.sum_cons, e]
    exact this

theorem readTuple_eats (ts : Tys) (x v : Vals ts) (hx : ReadyTuple ts x) (s s' : RSt) (h : readTuple c r ts x s = some (true, v, s')) :
    Eats ((tokensTuple ts v).map Token.least).sum s s' := by
  match ts with
  | .nil =>
    rw [readTuple] at h
    simp only [Option.some.injEq, Prod.mk.injEq, true_and] at h
    rw [← h.2]
    exact Eats.refl s
  | .cons t ts =>
    rw [readTuple, Option.bind_eq_some_iff] at h
    rw [ReadyTuple] at hx
    obtain ⟨⟨ok1, v1, s1⟩, e1, e⟩ := h
    cases ok1 with
    | false => simp at e
    | true =>
      simp only [if_true, Option.map_eq_some_iff, Prod.mk.injEq] at e
      obtain ⟨⟨ok', l', s2'⟩, e2, rfl, rfl, rfl⟩ := e
      have := (read_eats t x.1 v1 hx.1 _ _ e1).trans (readTuple_eats ts x.2 l' hx.2 _ _ e2)
      simpa [least, tokensTuple] using this

end

/-- **C149** A value that has been read from text successfully, whatever the text was: the unread characters are an end of the input, and the characters consumed are at least as many as the value has
numbers (sizes of containers included), booleans, characters and characters in strings. -/
theorem read_bounded {t : Ty} {x v : Val t} (hx : Ready t x) {s s' : RSt} (h : read c r t x s = some (true, v, s')) :
    s'.d <:+ s.d ∧ least t v + s'.d.length ≤ s.d.length := read_eats t x v hx s s' h

/-- `exVal` is a vector of pairs of a number and a boolean, a sequence of numbers and a string: nine characters at least. -/
example (r : Reader) (st : RSt) (h : read exCfg r exTy exOld ⟨bytes "2 12 false -3 true 1 7 ab", false⟩ = some (true, exVal, st)) :
    least exTy exVal = 9 ∧ 9 + st.d.length ≤ (bytes "2 12 false -3 true 1 7 ab").length :=
  ⟨by decide +kernel, (read_bounded exOld_ready h).2⟩

/-- **C149** So a container of elements none of which can be empty has fewer elements than the input has characters. -/
theorem read_vec_size {t : Ty} (ht : ∀ v, 0 < least t v) {x v : List (Val t)} (hx : Ready (.vec t) x) {s s' : RSt}
    (h : read c r (.vec t) x s = some (true, v, s')) : v.length < s.d.length := by
  have h1 := (read_bounded hx h).2
  have e := least_flatMap t v
  have h2 : v.length ≤ (v.map (least t)).sum := by
    clear h h1 e
    induction v with
    | nil => simp
    | cons y v ih => have := ht y; simp; omega
  have h3 : least (.vec t) v = 1 + (v.map (least t)).sum := by
    change ((Token.number 64 false v.length :: List.flatMap (tokens t) v).map Token.least).sum = _
    rw [List.map_cons, List.sum_cons, e]
    rfl
  omega

example {x v : List Int} {s s' : RSt} (h : read exCfg .skipws (.vec (.int 32 true)) x s = some (true, v, s')) : v.length < s.d.length :=
  read_vec_size (t := .int 32 true) (fun _ => Nat.one_pos) (fun _ _ => trivial) h

/-- **C149** The same for a container that only grows. -/
theorem read_seq_size {t : Ty} (ht : ∀ v, 0 < least t v) {x v : List (Val t)} (hx : Ready (.seq t) x) {s s' : RSt}
    (h : read c r (.seq t) x s = some (true, v, s')) : v.length < s.d.length := by
  have h1 := (read_bounded hx h).2
  have e := least_flatMap t v
  have h2 : v.length ≤ (v.map (least t)).sum := by
    clear h h1 e
    induction v with
    | nil => simp
    | cons y v ih => have := ht y; simp; omega
  have h3 : least (.seq t) v = 1 + (v.map (least t)).sum := by
    change ((Token.number 64 false v.length :: List.flatMap (tokens t) v).map Token.least).sum = _
    rw [List.map_cons, List.sum_cons, e]
    rfl
  omega

/-- **C149** So a loop that reads values until this fails ends, for every input, if every value of the type has a number, a boolean or a character: there are no more successes than characters. -/
theorem read_loop_ends {t : Ty} (ht : ∀ v, 0 < least t v) (k : Nat) (st : Nat → RSt)
    (h : ∀ i < k, ∃ x v, Ready t x ∧ read c r t x (st i) = some (true, v, st (i + 1))) : k ≤ (st 0).d.length := by
  have : k + (st k).d.length ≤ (st 0).d.length := by
    induction k with
    | zero => omega
    | succ k ih =>
      have h1 := ih fun i hi => h i (by omega)
      obtain ⟨x, v, h2, h3⟩ := h k (by omega)
      have := (read_bounded h2 h3).2
      have := ht v
      omega
  omega

example (k : Nat) (st : Nat → RSt) (h : ∀ i < k, ∃ v, read exCfg .skipws (.int 32 true) (0 : Int) (st i) = some (true, v, st (i + 1))) :
    k ≤ (st 0).d.length :=
  read_loop_ends (t := .int 32 true) (fun _ => Nat.one_pos) k st fun i hi => ⟨(0 : Int), (h i hi).choose, trivial, (h i hi).choose_spec⟩

/-- **C149** (negation) A loop that reads strings with whitespace skipped never ends: at the end of the input every read succeeds with an empty string. -/
theorem read_string_end (x : Val .str) (sep : Bool) : read c .skipws .str x ⟨[], sep⟩ = some (true, ([] : List Byte), ⟨[], sep⟩) := by
  rw [read]
  have := readWord_eq x []
  simp only [readLeaf, enterLeaf, List.dropWhile_nil, Option.bind_some, if_true]
  rw [this]
  rfl

end Actl.TextTree
