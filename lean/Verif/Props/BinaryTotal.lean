import Verif.Props.BinaryDevice

/-!
C150: reading in the binary format accepts exactly the encodings.
-/

namespace Actl.Binary

open Actl.Text

variable {α : Type}

theorem ofBytes_lt (bs : List Byte) : ofBytes bs < 256 ^ bs.length := by
  induction bs with
  | nil => simp [ofBytes]
  | cons b bs ih =>
    have := b.isLt
    rw [ofBytes, List.length_cons, Nat.pow_succ]
    omega

theorem toBytes_ofBytes (bs : List Byte) : toBytes bs.length (ofBytes bs) = bs := by
  induction bs with
  | nil => rfl
  | cons b bs ih =>
    have hb := b.isLt
    rw [List.length_cons, toBytes, ofBytes]
    have h1 : (b.toNat + 256 * ofBytes bs) / 256 = ofBytes bs := by omega
    rw [h1, ih]
    congr 1
    apply BitVec.eq_of_toNat_eq
    rw [BitVec.toNat_ofNat]
    omega

theorem readBytes_sound {old d bs r : List Byte} (h : readBytes old d = (true, bs, r)) : bs.length = old.length ∧ d = bs ++ r := by
  unfold readBytes at h
  simp only [Prod.mk.injEq, decide_eq_true_eq] at h
  obtain ⟨h1, h2, h3⟩ := h
  rw [h1, List.drop_length, List.append_nil] at h2
  subst h2 h3
  exact ⟨h1, (List.take_append_drop _ _).symm⟩

theorem readRange_sound {rd : α → List Byte → Bool × α × List Byte} {w : α → List Byte} {P Q : α → Prop}
    (hrd : ∀ o d v r, Q o → rd o d = (true, v, r) → P v ∧ d = w v ++ r) {olds vs : List α} {d r : List Byte} (ho : ∀ o ∈ olds, Q o)
    (h : readRange rd olds d = (true, vs, r)) : vs.length = olds.length ∧ (∀ v ∈ vs, P v) ∧ d = writeAll w vs ++ r := by
  induction olds generalizing d vs with
  | nil =>
    simp only [readRange, Prod.mk.injEq, true_and] at h
    obtain ⟨rfl, rfl⟩ := h
    exact ⟨rfl, by simp, rfl⟩
  | cons o os ih =>
    rw [readRange] at h
    rcases h1 : rd o d with ⟨ok, x, d'⟩
    rw [h1] at h
    cases ok with
    | false => simp at h
    | true =>
      simp only at h
      rcases h2 : readRange rd os d' with ⟨ok, xs, d''⟩
      rw [h2] at h
      simp only [Prod.mk.injEq] at h
      obtain ⟨rfl, rfl, rfl⟩ := h
      obtain ⟨i1, i2, i3⟩ := ih (fun o h => ho o (by simp [h])) h2
      obtain ⟨j1, j2⟩ := hrd _ _ _ _ (ho o (by simp)) h1
      refine ⟨by simp [i1], ?_, by rw [writeAll, List.append_assoc, ← i3, j2]⟩
      rintro v (_ | ⟨_, hv⟩)
      · exact j1
      · exact i2 v (by assumption)

theorem readEmplace_sound {rd : α → List Byte → Bool × α × List Byte} {w : α → List Byte} {P : α → Prop} {fresh : α}
    (hrd : ∀ d v r, rd fresh d = (true, v, r) → P v ∧ d = w v ++ r) {n : Nat} {xs ys : List α} {d r : List Byte}
    (h : readEmplace rd fresh n xs d = (true, ys, r)) : ∃ vs, ys = xs ++ vs ∧ vs.length = n ∧ (∀ v ∈ vs, P v) ∧ d = writeAll w vs ++ r := by
  induction n generalizing d xs with
  | zero =>
    simp only [readEmplace, Prod.mk.injEq, true_and] at h
    obtain ⟨rfl, rfl⟩ := h
    exact ⟨[], by simp, rfl, by simp, rfl⟩
  | succ n ih =>
    rw [readEmplace] at h
    rcases h1 : rd fresh d with ⟨ok, x, d'⟩
    rw [h1] at h
    cases ok with
    | false => simp at h
    | true =>
      obtain ⟨vs, rfl, i1, i2, i3⟩ := ih h
      obtain ⟨j1, j2⟩ := hrd _ _ _ h1
      refine ⟨x :: vs, by simp, by simp [i1], ?_, by rw [writeAll, List.append_assoc, ← i3, j2]⟩
      rintro v (_ | ⟨_, hv⟩)
      · exact j1
      · exact i2 v (by assumption)

theorem read_sound (t : Ty) (old v : Val t) (d r : List Byte) (ho : WF t old) (hs : NoSeq t old) (h : read t old d = (true, v, r)) :
    WF t v ∧ d = write t v ++ r := by
  induction t generalizing d r with
  | unit =>
    simp only [read, Prod.mk.injEq, true_and] at h
    exact ⟨trivial, by rw [h.2]; rfl⟩
  | arith n =>
    rw [read] at h
    rcases hb : readBytes (toBytes n (BitVec.toNat (w := 8 * n) old)) d with ⟨ok, bs, d'⟩
    rw [hb] at h
    simp only [Prod.mk.injEq] at h
    obtain ⟨rfl, h⟩ := h
    obtain ⟨h1, rfl⟩ := Prod.ext_iff.mp h
    simp only at h1
    obtain ⟨hl, rfl⟩ := readBytes_sound hb
    rw [toBytes_length] at hl
    refine ⟨trivial, ?_⟩
    rw [← h1]
    have e : (BitVec.ofNat (8 * n) (ofBytes bs)).toNat = ofBytes bs := by
      rw [BitVec.toNat_ofNat]
      apply Nat.mod_eq_of_lt
      have := ofBytes_lt bs
      rw [hl] at this
      rw [Nat.pow_mul]
      exact this
    change bs ++ d' = toBytes n (BitVec.ofNat (8 * n) (ofBytes bs)).toNat ++ d'
    rw [e, ← hl, toBytes_ofBytes]
  | pair a b iha ihb =>
    rw [read] at h
    rcases h1 : read a old.1 d with ⟨ok, y, d'⟩
    rw [h1] at h
    cases ok with
    | false => simp at h
    | true =>
      simp only at h
      rcases h2 : read b old.2 d' with ⟨ok, z, d''⟩
      rw [h2] at h
      simp only [Prod.mk.injEq] at h
      obtain ⟨rfl, rfl, rfl⟩ := h
      obtain ⟨a1, a2⟩ := iha _ _ _ _ ho.1 hs.1 h1
      obtain ⟨b1, b2⟩ := ihb _ _ _ _ ho.2 hs.2 h2
      exact ⟨⟨a1, b1⟩, by
        change d = (write a y ++ write b z) ++ r
        rw [List.append_assoc, ← b2, a2]⟩
  | array n t ih =>
    rw [read] at h
    obtain ⟨h1, h2, h3⟩ := readRange_sound (P := WF t) (Q := fun o => WF t o ∧ NoSeq t o) (fun o d v r q h => ih o v d r q.1 q.2 h)
      (fun o h => ⟨ho.2 o h, hs o h⟩) h
    exact ⟨⟨h1.trans ho.1, h2⟩, h3⟩
  | vec t ih =>
    rw [read] at h
    rcases hb : readBytes (toBytes 8 0) d with ⟨ok, bs, d'⟩
    rw [hb] at h
    cases ok with
    | false => simp at h
    | true =>
      obtain ⟨hl, rfl⟩ := readBytes_sound hb
      rw [toBytes_length] at hl
      have hr := resize_spec (fresh := default t) (ofBytes bs) old (fun o => WF t o ∧ NoSeq t o)
        ⟨wf_default t, noSeq_default t⟩ (fun o h => ⟨ho.2 o h, hs o h⟩)
      obtain ⟨h1, h2, h3⟩ := readRange_sound (P := WF t) (Q := fun o => WF t o ∧ NoSeq t o) (fun o d v r q h => ih o v d r q.1 q.2 h) hr.2 h
      rw [hr.1] at h1
      have hlt := ofBytes_lt bs
      rw [hl] at hlt
      refine ⟨⟨by rw [h1]; exact lt_of_lt_of_le hlt (by norm_num), h2⟩, ?_⟩
      rw [h3]
      change bs ++ _ = (toBytes 8 (List.length v) ++ writeAll (write t) v) ++ r
      rw [h1, ← hl, toBytes_ofBytes, List.append_assoc]
  | seq t ih =>
    rw [read] at h
    rcases hb : readBytes (toBytes 8 0) d with ⟨ok, bs, d'⟩
    rw [hb] at h
    cases ok with
    | false => simp at h
    | true =>
      obtain ⟨hl, rfl⟩ := readBytes_sound hb
      rw [toBytes_length] at hl
      obtain ⟨vs, h0, h1, h2, h3⟩ := readEmplace_sound (P := WF t) (fun d v r h => ih _ v d r (wf_default t) (noSeq_default t) h) h
      have hn : old = ([] : List (Val t)) := hs
      rw [hn, List.nil_append] at h0
      subst h0
      have hlt := ofBytes_lt bs
      rw [hl] at hlt
      refine ⟨⟨by rw [h1]; exact lt_of_lt_of_le hlt (by norm_num), h2⟩, ?_⟩
      rw [h3]
      change bs ++ _ = (toBytes 8 (List.length v) ++ writeAll (write t) v) ++ r
      rw [h1, ← hl, toBytes_ofBytes, List.append_assoc]

/-- **C150** Reading a value succeeds with value `v` and leaves `r` unread exactly if the input is the encoding of `v` followed by `r`; what the object contained before does not matter. -/
theorem read_success_iff (t : Ty) (old v : Val t) (d r : List Byte) (ho : WF t old) (hs : NoSeq t old) :
    read t old d = (true, v, r) ↔ WF t v ∧ d = image t v ++ r := by
  rw [← write_image]
  exact ⟨read_sound t old v d r ho hs, fun h => by rw [h.2]; exact read_write_partial t v old r h.1 ho hs⟩

/-- A vector of pairs of two bytes and one byte: any 8 bytes for the size and three per element. -/
example (old v : Val (.vec (.pair (.arith 2) (.arith 1)))) (d r : List Byte) (ho : WF (.vec (.pair (.arith 2) (.arith 1))) old) :
    read (.vec (.pair (.arith 2) (.arith 1))) old d = (true, v, r) ↔
      WF (.vec (.pair (.arith 2) (.arith 1))) v ∧ d = image (.vec (.pair (.arith 2) (.arith 1))) v ++ r :=
  read_success_iff _ _ _ _ _ ho fun _ _ => ⟨trivial, trivial⟩

/-! ### There are no other inputs than encodings and truncated ones -/

/-- `d` begins with the encoding of a value or is a proper beginning of one. -/
def Covered (w : α → List Byte) (P : α → Prop) (d : List Byte) : Prop :=
  (∃ v r, P v ∧ d = w v ++ r) ∨ ∃ v, P v ∧ d <+: w v ∧ d ≠ w v

theorem Covered.pair {β : Type} {w : α → List Byte} {P : α → Prop} {w' : β → List Byte} {P' : β → Prop} (h : ∀ d, Covered w P d)
    (h' : ∀ d, Covered w' P' d) (d : List Byte) : Covered (fun x : α × β => w x.1 ++ w' x.2) (fun x => P x.1 ∧ P' x.2) d := by
  have ⟨b, hb⟩ : ∃ b, P' b := by
    rcases h' [] with ⟨v, -, h, -⟩ | ⟨v, h, -⟩ <;> exact ⟨v, h⟩
  rcases h d with ⟨v, r, hv, rfl⟩ | ⟨v, hv, hd, hne⟩
  · rcases h' r with ⟨v', r', hv', rfl⟩ | ⟨v', hv', hd', hne'⟩
    · exact .inl ⟨(v, v'), r', ⟨hv, hv'⟩, by simp⟩
    · exact .inr ⟨(v, v'), ⟨hv, hv'⟩, (List.prefix_append_right_inj _).mpr hd', by simpa using hne'⟩
  · refine .inr ⟨(v, b), ⟨hv, hb⟩, hd.trans (List.prefix_append _ _), fun e => hne ?_⟩
    refine hd.eq_of_length_le ?_
    rw [e]
    simp

theorem Covered.all {w : α → List Byte} {P : α → Prop} (h : ∀ d, Covered w P d) (n : Nat) (d : List Byte) :
    Covered (writeAll w) (fun l => l.length = n ∧ ∀ v ∈ l, P v) d := by
  induction n generalizing d with
  | zero => exact .inl ⟨[], d, ⟨rfl, by simp⟩, rfl⟩
  | succ n ih =>
    rcases Covered.pair h ih d with ⟨v, r, hv, e⟩ | ⟨v, hv, e⟩
    · exact .inl ⟨v.1 :: v.2, r, ⟨by simp [hv.2.1], by simpa using ⟨hv.1, hv.2.2⟩⟩, e⟩
    · exact .inr ⟨v.1 :: v.2, ⟨by simp [hv.2.1], by simpa using ⟨hv.1, hv.2.2⟩⟩, e⟩

theorem covered_bytes (n : Nat) (d : List Byte) : (∃ bs r, bs.length = n ∧ d = bs ++ r) ∨ ∃ bs, bs.length = n ∧ d <+: bs ∧ d ≠ bs := by
  by_cases h : n ≤ d.length
  · exact .inl ⟨d.take n, d.drop n, by simp [h], (List.take_append_drop _ _).symm⟩
  · refine .inr ⟨d ++ List.replicate (n - d.length) 0#8, by simp; omega, List.prefix_append _ _, fun e => ?_⟩
    have := congrArg List.length e
    simp at this
    omega

theorem covered_sized {w : α → List Byte} {P : α → Prop} (h : ∀ d, Covered w P d) (d : List Byte) :
    Covered (fun l => toBytes 8 l.length ++ writeAll w l) (fun l : List α => l.length < 2 ^ 64 ∧ ∀ v ∈ l, P v) d := by
  have key : ∀ bs : List Byte, bs.length = 8 → ofBytes bs < 2 ^ 64 ∧ toBytes 8 (ofBytes bs) = bs := fun bs hl => by
    have h1 := ofBytes_lt bs
    have h2 := toBytes_ofBytes bs
    rw [hl] at h1 h2
    exact ⟨lt_of_lt_of_le h1 (by norm_num), h2⟩
  rcases covered_bytes 8 d with ⟨bs, r, hl, rfl⟩ | ⟨bs, hl, hd, hne⟩
  · obtain ⟨k1, k2⟩ := key bs hl
    rcases Covered.all h (ofBytes bs) r with ⟨v, r', hv, rfl⟩ | ⟨v, hv, hd', hne'⟩
    · exact .inl ⟨v, r', ⟨by rw [hv.1]; exact k1, hv.2⟩, by simp only [hv.1, k2, List.append_assoc]⟩
    · refine .inr ⟨v, ⟨by rw [hv.1]; exact k1, hv.2⟩, ?_, ?_⟩
      · simp only [hv.1, k2]
        exact (List.prefix_append_right_inj _).mpr hd'
      · simp only [hv.1, k2]
        simpa using hne'
  · obtain ⟨k1, k2⟩ := key bs hl
    obtain ⟨v, hv⟩ : ∃ v : List α, v.length = ofBytes bs ∧ ∀ x ∈ v, P x := by
      rcases Covered.all h (ofBytes bs) [] with ⟨v, -, h, -⟩ | ⟨v, h, -⟩ <;> exact ⟨v, h⟩
    refine .inr ⟨v, ⟨by rw [hv.1]; exact k1, hv.2⟩, ?_, ?_⟩
    · simp only [hv.1, k2]
      exact hd.trans (List.prefix_append _ _)
    · simp only [hv.1, k2]
      intro e
      refine hne (hd.eq_of_length_le ?_)
      rw [e]
      simp

theorem covered (t : Ty) (d : List Byte) : Covered (write t) (WF t) d := by
  induction t generalizing d with
  | unit => exact .inl ⟨(), d, trivial, rfl⟩
  | arith n =>
    have key : ∀ bs : List Byte, bs.length = n → write (.arith n) (BitVec.ofNat (8 * n) (ofBytes bs)) = bs := fun bs hl => by
      have h1 := ofBytes_lt bs
      have h2 := toBytes_ofBytes bs
      rw [hl] at h1 h2
      change toBytes n (BitVec.ofNat (8 * n) (ofBytes bs)).toNat = bs
      rw [BitVec.toNat_ofNat, Nat.pow_mul, Nat.mod_eq_of_lt h1, h2]
    rcases covered_bytes n d with ⟨bs, r, hl, rfl⟩ | ⟨bs, hl, hd, hne⟩
    · exact .inl ⟨BitVec.ofNat (8 * n) (ofBytes bs), r, trivial, by rw [key bs hl]⟩
    · exact .inr ⟨BitVec.ofNat (8 * n) (ofBytes bs), trivial, by rw [key bs hl]; exact hd, by rw [key bs hl]; exact hne⟩
  | pair a b iha ihb => exact Covered.pair iha ihb d
  | array n t ih => exact Covered.all ih n d
  | vec t ih => exact covered_sized ih d
  | seq t ih => exact covered_sized ih d

/-- **C150** Reading fails exactly on the proper beginnings of encodings: no other input is malformed. -/
theorem read_failure_iff (t : Ty) (old : Val t) (d : List Byte) (ho : WF t old) (hs : NoSeq t old) :
    (read t old d).1 = false ↔ ∃ v, WF t v ∧ d <+: image t v ∧ d ≠ image t v := by
  simp only [← write_image]
  refine ⟨fun h => ?_, fun ⟨v, hv, hd, hne⟩ => read_truncated t v old hv ho hs d hd hne⟩
  rcases covered t d with ⟨v, r, hv, rfl⟩ | h'
  · rw [read_write_partial t v old r hv ho hs] at h
    simp at h
  · exact h'

/-- A size of two with one and a half elements is the beginning of an encoding. -/
example : ∃ v, WF (.vec (.arith 2)) v ∧ [2#8, 0#8, 0#8, 0#8, 0#8, 0#8, 0#8, 0#8, 5#8, 6#8, 7#8] <+: image (.vec (.arith 2)) v ∧
    [2#8, 0#8, 0#8, 0#8, 0#8, 0#8, 0#8, 0#8, 5#8, 6#8, 7#8] ≠ image (.vec (.arith 2)) v :=
  (read_failure_iff (.vec (.arith 2)) (default _) _ (wf_default _) (noSeq_default _)).mp (by decide +kernel)

/-! ### What a failed attempt leaves -/

/-- **C150** After a failed attempt nothing is left unread. -/
theorem read_failure_rest (t : Ty) (old y : Val t) (d r : List Byte) (h : read t old d = (false, y, r)) : r = [] := by
  have hb : ∀ {o d bs r : List Byte}, readBytes o d = (false, bs, r) → r = [] := fun {o d bs r} h => by
    simp only [readBytes, Prod.mk.injEq, decide_eq_false_iff_not, List.length_take] at h
    obtain ⟨h1, -, rfl⟩ := h
    exact List.drop_eq_nil_of_le (by omega)
  have hr : ∀ {α : Type} {rd : α → List Byte → Bool × α × List Byte}, (∀ o d y r, rd o d = (false, y, r) → r = []) →
      ∀ xs d ys r, readRange rd xs d = (false, ys, r) → r = [] := fun {α rd} hrd xs => by
    induction xs with
    | nil => intro d ys r h; simp [readRange] at h
    | cons x xs ih =>
      intro d ys r h
      rw [readRange] at h
      rcases h1 : rd x d with ⟨ok, x', d'⟩
      rw [h1] at h
      cases ok with
      | false =>
        simp only [Prod.mk.injEq, true_and] at h
        rw [← h.2]
        exact hrd _ _ _ _ h1
      | true =>
        simp only at h
        rcases h2 : readRange rd xs d' with ⟨ok, xs', d''⟩
        rw [h2] at h
        simp only [Prod.mk.injEq] at h
        obtain ⟨rfl, -, rfl⟩ := h
        exact ih _ _ _ h2
  have he : ∀ {α : Type} {rd : α → List Byte → Bool × α × List Byte} {fresh : α}, (∀ o d y r, rd o d = (false, y, r) → r = []) →
      ∀ n xs d ys r, readEmplace rd fresh n xs d = (false, ys, r) → r = [] := fun {α rd fresh} hrd n => by
    induction n with
    | zero => intro xs d ys r h; simp [readEmplace] at h
    | succ n ih =>
      intro xs d ys r h
      rw [readEmplace] at h
      rcases h1 : rd fresh d with ⟨ok, x', d'⟩
      rw [h1] at h
      cases ok with
      | false =>
        simp only [Prod.mk.injEq, true_and] at h
        rw [← h.2]
        exact hrd _ _ _ _ h1
      | true => exact ih _ _ _ _ h
  induction t generalizing d r with
  | unit => simp [read] at h
  | arith n =>
    rw [read] at h
    rcases h1 : readBytes (toBytes n (BitVec.toNat (w := 8 * n) old)) d with ⟨ok, bs, d'⟩
    rw [h1] at h
    simp only [Prod.mk.injEq] at h
    obtain ⟨rfl, h⟩ := h
    obtain ⟨-, rfl⟩ := Prod.ext_iff.mp h
    exact hb h1
  | pair a b iha ihb =>
    rw [read] at h
    rcases h1 : read a old.1 d with ⟨ok, y, d'⟩
    rw [h1] at h
    cases ok with
    | false =>
      simp only [Prod.mk.injEq, true_and] at h
      obtain ⟨-, rfl⟩ := Prod.ext_iff.mp h
      exact iha _ _ _ _ h1
    | true =>
      simp only at h
      rcases h2 : read b old.2 d' with ⟨ok, z, d''⟩
      rw [h2] at h
      simp only [Prod.mk.injEq] at h
      obtain ⟨rfl, -, rfl⟩ := h
      exact ihb _ _ _ _ h2
  | array n t ih => exact hr (fun o d y r h => ih o y d r h) _ _ _ _ h
  | vec t ih =>
    rw [read] at h
    rcases h1 : readBytes (toBytes 8 0) d with ⟨ok, bs, d'⟩
    rw [h1] at h
    cases ok with
    | false =>
      simp only [Prod.mk.injEq, true_and] at h
      rw [← h.2]
      exact hb h1
    | true => exact hr (fun o d y r h => ih o y d r h) _ _ _ _ h
  | seq t ih =>
    rw [read] at h
    rcases h1 : readBytes (toBytes 8 0) d with ⟨ok, bs, d'⟩
    rw [h1] at h
    cases ok with
    | false =>
      simp only [Prod.mk.injEq, true_and] at h
      rw [← h.2]
      exact hb h1
    | true => exact he (fun o d y r h => ih o y d r h) _ _ _ _ _ h

/-- A type without containers: all values have the same number of bytes. -/
def Fixed : Ty → Prop
  | .unit => True
  | .arith _ => True
  | .pair a b => Fixed a ∧ Fixed b
  | .array _ t => Fixed t
  | .vec _ => False
  | .seq _ => False

/-- `w` with its beginning overwritten by `d`. -/
def over (w d : List Byte) : List Byte := d.take w.length ++ w.drop d.length

theorem over_append (w w' d : List Byte) : over (w ++ w') d = over w d ++ over w' (d.drop w.length) := by
  unfold over
  by_cases h : w.length ≤ d.length
  · rw [List.drop_eq_nil_of_le h, List.length_append, List.take_add, List.drop_append, List.drop_eq_nil_of_le h]
    simp
  · rw [List.drop_eq_nil_of_le (by omega : d.length ≤ w.length), List.take_of_length_le (by simp; omega), List.take_of_length_le (by omega),
      List.drop_append_of_le_length (by omega)]
    simp

theorem over_nil (w : List Byte) : over w [] = w := by simp [over]

theorem over_length (w d : List Byte) : (over w d).length = w.length := by
  simp only [over, List.length_append, List.length_take, List.length_drop]
  omega

/-- What reading does to an object of fixed size. -/
def Overwrites (w : α → List Byte) (P : α → Prop) (old : α) (d : List Byte) (res : Bool × α × List Byte) : Prop :=
  res.1 = decide ((w old).length ≤ d.length) ∧ P res.2.1 ∧ w res.2.1 = over (w old) d ∧ res.2.2 = d.drop (w old).length

theorem range_overwrites {rd : α → List Byte → Bool × α × List Byte} {w : α → List Byte} {P : α → Prop} (h : ∀ o d, P o → Overwrites w P o d (rd o d))
    (xs : List α) (hx : ∀ x ∈ xs, P x) (d : List Byte) :
    Overwrites (writeAll w) (fun l => l.length = xs.length ∧ ∀ x ∈ l, P x) xs d (readRange rd xs d) := by
  induction xs generalizing d with
  | nil => exact ⟨by simp [readRange, writeAll], by simp [readRange], by simp [readRange, writeAll, over], by simp [readRange, writeAll]⟩
  | cons x xs ih =>
    obtain ⟨h1, h2, h3, h4⟩ := h x d (hx x (by simp))
    rcases e : rd x d with ⟨ok, x', d'⟩
    rw [e] at h1 h2 h3 h4
    simp only at h1 h2 h3 h4
    cases ok with
    | false =>
      have hlt : d.length < (w x).length := by
        have := h1.symm
        rw [decide_eq_false_iff_not] at this
        omega
      simp only [readRange, e, Overwrites, writeAll]
      refine ⟨?_, ⟨by simp, ?_⟩, ?_, ?_⟩
      · simp; omega
      · rintro v (_ | ⟨_, hv⟩)
        · exact h2
        · exact hx v (by simp; right; assumption)
      · rw [over_append, h3, List.drop_eq_nil_of_le (by omega : d.length ≤ (w x).length), over_nil]
      · rw [h4, List.drop_eq_nil_of_le (by omega), List.drop_eq_nil_of_le (by simp; omega)]
    | true =>
      have hle : (w x).length ≤ d.length := by
        have := h1.symm
        rwa [decide_eq_true_eq] at this
      obtain ⟨i1, i2, i3, i4⟩ := ih (fun x h => hx x (by simp [h])) d'
      rcases e' : readRange rd xs d' with ⟨ok, xs', d''⟩
      rw [e'] at i1 i2 i3 i4
      simp only at i1 i2 i3 i4
      simp only [readRange, e, e', Overwrites, writeAll]
      refine ⟨?_, ⟨by simp [i2.1], ?_⟩, ?_, ?_⟩
      · rw [i1, h4]
        refine decide_eq_decide.mpr ?_
        rw [List.length_drop, List.length_append]
        omega
      · rintro v (_ | ⟨_, hv⟩)
        · exact h2
        · exact i2.2 v (by assumption)
      · rw [over_append, h3, i3, h4]
      · rw [i4, h4, List.drop_drop, List.length_append]

theorem read_overwrites (t : Ty) (ht : Fixed t) (old : Val t) (ho : WF t old) (d : List Byte) : Overwrites (write t) (WF t) old d (read t old d) := by
  induction t generalizing d with
  | unit => exact ⟨by simp [read, write], trivial, by simp [read, write, over], by simp [read, write]⟩
  | arith n =>
    have hl := toBytes_length n (BitVec.toNat (w := 8 * n) old)
    have hol := over_length (toBytes n (BitVec.toNat (w := 8 * n) old)) d
    have e : readBytes (toBytes n (BitVec.toNat (w := 8 * n) old)) d =
        (decide (n ≤ d.length), over (toBytes n (BitVec.toNat (w := 8 * n) old)) d, d.drop n) := by
      simp only [readBytes, hl, over, List.length_take, Prod.mk.injEq, and_true]
      refine ⟨by rw [decide_eq_decide]; omega, ?_⟩
      congr 1
      by_cases h : n ≤ d.length
      · rw [Nat.min_eq_left h, List.drop_eq_nil_of_le (by omega), List.drop_eq_nil_of_le (by omega)]
      · rw [Nat.min_eq_right (by omega)]
    have key : ∀ bs : List Byte, bs.length = n → write (.arith n) (BitVec.ofNat (8 * n) (ofBytes bs)) = bs := fun bs hl => by
      have h1 := ofBytes_lt bs
      have h2 := toBytes_ofBytes bs
      rw [hl] at h1 h2
      change toBytes n (BitVec.ofNat (8 * n) (ofBytes bs)).toNat = bs
      rw [BitVec.toNat_ofNat, Nat.pow_mul, Nat.mod_eq_of_lt h1, h2]
    have e2 : read (.arith n) old d = (decide (n ≤ d.length),
        BitVec.ofNat (8 * n) (ofBytes (over (toBytes n (BitVec.toNat (w := 8 * n) old)) d)), d.drop n) := by
      rw [read, e]
      rfl
    rw [e2]
    have hw : (write (.arith n) old).length = n := hl
    refine ⟨by rw [hw], trivial, key _ (by rw [hol, hl]), by rw [hw]⟩
  | pair a b iha ihb =>
    obtain ⟨h1, h2, h3, h4⟩ := iha ht.1 old.1 ho.1 d
    rcases e : read a old.1 d with ⟨ok, x', d'⟩
    rw [e] at h1 h2 h3 h4
    simp only at h1 h2 h3 h4
    have hw : ∀ x : Val (.pair a b), write (.pair a b) x = write a x.1 ++ write b x.2 := fun _ => rfl
    cases ok with
    | false =>
      have hlt : d.length < (write a old.1).length := by
        have := h1.symm
        rw [decide_eq_false_iff_not] at this
        omega
      simp only [read, e, Overwrites, hw]
      refine ⟨?_, ⟨h2, ho.2⟩, ?_, ?_⟩
      · simp; omega
      · change write a x' ++ write b old.2 = _
        rw [over_append, h3, List.drop_eq_nil_of_le (by omega : d.length ≤ (write a old.1).length), over_nil]
      · rw [h4, List.drop_eq_nil_of_le (by omega), List.drop_eq_nil_of_le (by simp; omega)]
    | true =>
      have hle : (write a old.1).length ≤ d.length := by
        have := h1.symm
        rwa [decide_eq_true_eq] at this
      obtain ⟨i1, i2, i3, i4⟩ := ihb ht.2 old.2 ho.2 d'
      rcases e' : read b old.2 d' with ⟨ok, z, d''⟩
      rw [e'] at i1 i2 i3 i4
      simp only at i1 i2 i3 i4
      simp only [read, e, e', Overwrites, hw]
      refine ⟨?_, ⟨h2, i2⟩, ?_, ?_⟩
      · rw [i1, h4]
        refine decide_eq_decide.mpr ?_
        rw [List.length_drop, List.length_append]
        omega
      · change write a x' ++ write b z = _
        rw [over_append, h3, i3, h4]
      · rw [i4, h4, List.drop_drop, List.length_append]
  | array n t ih =>
    obtain ⟨h1, h2, h3, h4⟩ := range_overwrites (w := write t) (P := WF t) (fun o d h => ih ht o h d) old ho.2 d
    exact ⟨h1, ⟨h2.1.trans ho.1, h2.2⟩, h3, h4⟩
  | vec t _ => exact ht.elim
  | seq t _ => exact ht.elim

/-- **C150** For types without containers: reading, successful or not, overwrites the beginning of the bytes of the object with those of the input, as many as there are, and changes no other byte. -/
theorem read_fixed (t : Ty) (ht : Fixed t) (old : Val t) (ho : WF t old) (d : List Byte) :
    (read t old d).1 = decide ((image t old).length ≤ d.length) ∧
    image t (read t old d).2.1 = d.take (image t old).length ++ (image t old).drop d.length ∧
    (read t old d).2.2 = d.drop (image t old).length := by
  simp only [← write_image]
  obtain ⟨h1, -, h3, h4⟩ := read_overwrites t ht old ho d
  exact ⟨h1, h3, h4⟩

/-- Three bytes for two numbers of two bytes: the last byte of the second number is the old one. -/
example : image (.pair (.arith 2) (.arith 2)) (read (.pair (.arith 2) (.arith 2)) ((0x0102#16, 0x0304#16) : BitVec 16 × BitVec 16)
    [7#8, 8#8, 9#8]).2.1 = [7#8, 8#8, 9#8, 3#8] := by decide +kernel

/-! ### Devices -/

variable {δ : Type}

/-- **C150** The same from any device, in a state in which it delivers the bytes `s`: the value read is the one whose bytes come first, and if there is none reading fails. -/
theorem device_success_iff {src : Source δ} {R : δ → List Byte → Prop} (h : Delivers src R) {t : Ty} {old : Val t} (ho : WF t old) (hs : NoSeq t old)
    {s : List Byte} {d : δ} (hd : R d s) : ∃ ok y d', readDev src t old d = some (ok, y, d') ∧
      (∀ v, ok = true ∧ y = v ↔ WF t v ∧ image t v <+: s) ∧
      (ok = true → ∀ k, ∃ d'', src k d' = some ((s.drop (image t y).length).take k, d'')) := by
  obtain ⟨d', h1, h2⟩ := read_same h t old hd
  rcases hr : read t old s with ⟨ok, y, r⟩
  rw [hr] at h1 h2
  refine ⟨ok, y, d', h1, fun v => ⟨?_, ?_⟩, ?_⟩
  · rintro ⟨rfl, rfl⟩
    obtain ⟨a, b⟩ := (read_success_iff t old y s r ho hs).mp hr
    exact ⟨a, r, b.symm⟩
  · rintro ⟨a, q, b⟩
    have := (read_success_iff t old v s q ho hs).mpr ⟨a, b.symm⟩
    rw [hr] at this
    simp only [Prod.mk.injEq] at this
    exact ⟨this.1, this.2.1⟩
  · rintro rfl k
    obtain ⟨-, b⟩ := (read_success_iff t old y s r ho hs).mp hr
    obtain ⟨d'', h3, -⟩ := h d' r k h2
    rw [b, List.drop_left]
    exact ⟨d'', h3⟩

/-- **C150** In particular from a new buffered reader of any capacity, whatever the bytes. -/
theorem buffered_success_iff {B : Nat} (hB : 0 < B) {t : Ty} {old : Val t} (ho : WF t old) (hs : NoSeq t old) (s : List Byte) :
    ∃ ok y d', readDev (bufferedSource B) t old (Buffered.Reader.fresh s) = some (ok, y, d') ∧ (∀ v, ok = true ∧ y = v ↔ WF t v ∧ image t v <+: s) := by
  obtain ⟨ok, y, d', h1, h2, -⟩ := device_success_iff (buffered_delivers hB s) ho hs (fresh_at s)
  exact ⟨ok, y, d', h1, h2⟩

example : ∃ ok y d', readDev (bufferedSource 3) (.vec (.arith 2)) (default _) (Buffered.Reader.fresh [1#8, 0#8, 0#8, 0#8, 0#8, 0#8, 0#8, 0#8, 5#8, 6#8, 7#8]) =
    some (ok, y, d') ∧ ok = true := by
  obtain ⟨ok, y, d', h1, h2⟩ := buffered_success_iff (B := 3) (by decide) (t := .vec (.arith 2)) (wf_default _) (noSeq_default _)
    [1#8, 0#8, 0#8, 0#8, 0#8, 0#8, 0#8, 0#8, 5#8, 6#8, 7#8]
  exact ⟨ok, y, d', h1, ((h2 [0x0605#16]).mpr ⟨⟨by decide, fun _ _ => trivial⟩, by decide +kernel⟩).1⟩

end Actl.Binary
