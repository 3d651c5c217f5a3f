import Verif.Props.BinaryAssoc
import Verif.Props.BinaryTotal

/-!
C151: sets and maps read from any bytes are valid.
-/

namespace Actl.BinaryAssoc

open Actl.Text

variable {α : Type}

/-- What the standard library asks of a comparison, as far as it is needed here. -/
def Strict (less : α → α → Bool) : Prop := (∀ x, less x x = false) ∧ ∀ x y z, less x y = true → less y z = true → less x z = true

theorem Strict.asymm {less : α → α → Bool} (h : Strict less) {x y : α} (hxy : less x y = true) : less y x = false := by
  rw [Bool.eq_false_iff]
  intro hyx
  have := h.2 _ _ _ hxy hyx
  rw [h.1] at this
  simp at this

theorem emplace_sorted {u : Bool} {less : α → α → Bool} (h : Strict less) (x : α) {ys : List α} (hs : Sorted u less ys) :
    Sorted u less (emplace u less x ys) := by
  induction ys with
  | nil => exact List.pairwise_singleton _ _
  | cons y ys ih =>
    obtain ⟨h1, h2⟩ := List.pairwise_cons.mp hs
    have hk := fun e => (emplace_keeps (u := u) (less := less) (x := x) (ys := ys)).2 e
    unfold emplace
    split
    · rename_i hyx
      refine List.pairwise_cons.mpr ⟨fun e he => ?_, ih h2⟩
      rcases hk e he with rfl | he
      · cases u with
        | true => exact hyx
        | false => exact h.asymm hyx
      · exact h1 e he
    · rename_i hyx
      split
      · rename_i hxy
        refine List.pairwise_cons.mpr ⟨fun e he => ?_, hs⟩
        rcases List.mem_cons.mp he with rfl | he
        · cases u with
          | true => exact hxy
          | false => simpa using hyx
        · have := h1 e he
          cases u with
          | true => exact h.2 _ _ _ hxy this
          | false =>
            simp only [Bool.false_eq_true, if_false] at this ⊢
            rw [Bool.eq_false_iff] at this ⊢
            exact fun hex => this (h.2 _ _ _ hex hxy)
      · rename_i hxy
        split
        · exact hs
        · rename_i hu
          obtain rfl : u = false := by simpa using hu
          refine List.pairwise_cons.mpr ⟨fun e he => ?_, ih h2⟩
          rcases hk e he with rfl | he
          · simpa using hxy
          · exact h1 e he

theorem emplace_length (u : Bool) (less : α → α → Bool) (x : α) (ys : List α) : (emplace u less x ys).length ≤ ys.length + 1 := by
  induction ys with
  | nil => simp [emplace]
  | cons y ys ih =>
    unfold emplace
    split
    · simp; omega
    · split
      · simp
      · split
        · simp
        · simp; omega

theorem emplace_covers (less : α → α → Bool) (x : α) (ys : List α) :
    ∃ e ∈ emplace true less x ys, e = x ∨ (less e x = false ∧ less x e = false) := by
  induction ys with
  | nil => exact ⟨x, by simp [emplace], .inl rfl⟩
  | cons y ys ih =>
    unfold emplace
    split
    · obtain ⟨e, he, h⟩ := ih
      exact ⟨e, by simp [he], h⟩
    · rename_i h1
      split
      · exact ⟨x, by simp, .inl rfl⟩
      · rename_i h2
        exact ⟨y, by simp, .inr ⟨by simpa using h1, by simpa using h2⟩⟩

theorem emplace_perm (less : α → α → Bool) (x : α) (ys : List α) : (emplace false less x ys).Perm (x :: ys) := by
  induction ys with
  | nil => exact List.Perm.refl _
  | cons y ys ih =>
    unfold emplace
    split
    · exact (ih.cons y).trans (List.Perm.swap _ _ _)
    · split
      · exact List.Perm.refl _
      · exact (ih.cons y).trans (List.Perm.swap _ _ _)

/-! ### Loops, whether or not they succeed -/

theorem readRange_after {rd : α → List Byte → Bool × α × List Byte} {P Q : α → Prop} (hqp : ∀ o, Q o → P o) (hrd : ∀ o d, Q o → P (rd o d).2.1)
    (xs : List α) (hx : ∀ x ∈ xs, Q x) (d : List Byte) : (Binary.readRange rd xs d).2.1.length = xs.length ∧ ∀ x ∈ (Binary.readRange rd xs d).2.1, P x := by
  induction xs generalizing d with
  | nil => simp [Binary.readRange]
  | cons x xs ih =>
    have h1 := hrd x d (hx x (by simp))
    rcases e : rd x d with ⟨ok, x', d'⟩
    rw [e] at h1
    cases ok with
    | false =>
      simp only [Binary.readRange, e]
      refine ⟨by simp, fun y hy => ?_⟩
      rcases List.mem_cons.mp hy with rfl | hy
      · exact h1
      · exact hqp _ (hx y (by simp [hy]))
    | true =>
      obtain ⟨i1, i2⟩ := ih (fun x h => hx x (by simp [h])) d'
      simp only [Binary.readRange, e]
      refine ⟨by simp [i1], fun y hy => ?_⟩
      rcases List.mem_cons.mp hy with rfl | hy
      · exact h1
      · exact i2 y hy

theorem readEmplace_after {ins : α → List α → List α} {rd : α → List Byte → Bool × α × List Byte} {fresh : α} {P : α → Prop} {S : List α → Prop}
    (hl : ∀ x l, (ins x l).length ≤ l.length + 1) (hi : ∀ x l, P x → S l → (∀ y ∈ l, P y) → S (ins x l) ∧ ∀ y ∈ ins x l, P y)
    (hrd : ∀ d, P (rd fresh d).2.1) (n : Nat) (xs : List α) (hs : S xs) (hx : ∀ x ∈ xs, P x) (d : List Byte) :
    (readEmplace ins rd fresh n xs d).2.1.length ≤ xs.length + n ∧ S (readEmplace ins rd fresh n xs d).2.1 ∧
      ∀ x ∈ (readEmplace ins rd fresh n xs d).2.1, P x := by
  induction n generalizing xs d with
  | zero => exact ⟨Nat.le_refl _, hs, hx⟩
  | succ n ih =>
    have h1 := hrd d
    rcases e : rd fresh d with ⟨ok, x', d'⟩
    rw [e] at h1
    cases ok with
    | false =>
      simp only [readEmplace, e]
      exact ⟨by omega, hs, hx⟩
    | true =>
      obtain ⟨j1, j2⟩ := hi x' xs h1 hs hx
      obtain ⟨i1, i2, i3⟩ := ih (ins x' xs) j1 j2 d'
      simp only [readEmplace, e]
      have := hl x' xs
      exact ⟨by omega, i2, i3⟩

theorem readBytes_size {d bs r : List Byte} {ok : Bool} (h : Binary.readBytes (Binary.toBytes 8 0) d = (ok, bs, r)) : Binary.ofBytes bs < 2 ^ 64 := by
  have hl : bs.length = 8 := by
    have h8 := Binary.toBytes_length 8 0
    simp only [Binary.readBytes, Prod.mk.injEq] at h
    rw [← h.2.1]
    simp only [List.length_append, List.length_take, List.length_drop, h8]
    omega
  have := Binary.ofBytes_lt bs
  rw [hl] at this
  exact lt_of_lt_of_le this (by norm_num)

theorem base_after (t : Binary.Ty) (old : Binary.Val t) (d : List Byte) (ho : Binary.WF t old) (hs : Binary.NoSeq t old) :
    Binary.WF t (Binary.read t old d).2.1 := by
  induction t generalizing d with
  | unit => trivial
  | arith n => trivial
  | pair a b iha ihb =>
    have h1 := iha old.1 d ho.1 hs.1
    simp only [Binary.read]
    rcases e : Binary.read a old.1 d with ⟨ok, x', d'⟩
    rw [e] at h1
    cases ok with
    | false => exact ⟨h1, ho.2⟩
    | true => exact ⟨h1, ihb old.2 d' ho.2 hs.2⟩
  | array n t ih =>
    obtain ⟨h1, h2⟩ := readRange_after (P := Binary.WF t) (Q := fun o => Binary.WF t o ∧ Binary.NoSeq t o) (fun _ h => h.1)
      (fun o d h => ih o d h.1 h.2) old (fun o h => ⟨ho.2 o h, hs o h⟩) d
    exact ⟨h1.trans ho.1, h2⟩
  | vec t ih =>
    simp only [Binary.read]
    rcases e : Binary.readBytes (Binary.toBytes 8 0) d with ⟨ok, bs, d'⟩
    cases ok with
    | false => exact ho
    | true =>
      have hr := Binary.resize_spec (fresh := Binary.default t) (Binary.ofBytes bs) old (fun o => Binary.WF t o ∧ Binary.NoSeq t o)
        ⟨Binary.wf_default t, Binary.noSeq_default t⟩ (fun o h => ⟨ho.2 o h, hs o h⟩)
      obtain ⟨h1, h2⟩ := readRange_after (P := Binary.WF t) (Q := fun o => Binary.WF t o ∧ Binary.NoSeq t o) (fun _ h => h.1)
        (fun o d h => ih o d h.1 h.2) _ hr.2 d'
      refine ⟨?_, h2⟩
      rw [hr.1] at h1
      exact h1 ▸ readBytes_size e
  | seq t ih =>
    simp only [Binary.read]
    rcases e : Binary.readBytes (Binary.toBytes 8 0) d with ⟨ok, bs, d'⟩
    cases ok with
    | false => exact ho
    | true =>
      have key : ∀ n xs d, (∀ x ∈ xs, Binary.WF t x) → (Binary.readEmplace (Binary.read t) (Binary.default t) n xs d).2.1.length ≤ xs.length + n ∧
          ∀ x ∈ (Binary.readEmplace (Binary.read t) (Binary.default t) n xs d).2.1, Binary.WF t x := fun n => by
        induction n with
        | zero => exact fun xs d h => ⟨Nat.le_refl _, h⟩
        | succ n ihn =>
          intro xs d h
          have h1 := ih (Binary.default t) d (Binary.wf_default t) (Binary.noSeq_default t)
          simp only [Binary.readEmplace]
          rcases e : Binary.read t (Binary.default t) d with ⟨ok, x', d'⟩
          rw [e] at h1
          cases ok with
          | false => exact ⟨by simp only; omega, h⟩
          | true =>
            obtain ⟨i1, i2⟩ := ihn (xs ++ [x']) d' (fun y hy => by
              rcases List.mem_append.mp hy with hy | hy
              · exact h y hy
              · rw [List.mem_singleton.mp hy]; exact h1)
            refine ⟨?_, i2⟩
            simp only [List.length_append, List.length_singleton] at i1
            simp only
            omega
      obtain ⟨h1, h2⟩ := key (Binary.ofBytes bs) old d' ho.2
      have hn : old = ([] : List (Binary.Val t)) := hs
      have h3 := readBytes_size e
      refine ⟨?_, h2⟩
      have hz : List.length (show List (Binary.Val t) from old) = 0 := by rw [hn]; rfl
      exact lt_of_le_of_lt h1 (by rw [hz]; omega)

theorem wf_default (less : Less) (t : Ty) : WF less t (default t) := by
  induction t with
  | base t => exact Binary.wf_default t
  | pair a b iha ihb => exact ⟨iha, ihb⟩
  | vec t _ => exact ⟨Nat.two_pow_pos 64, fun y hy => absurd hy List.not_mem_nil⟩
  | set u t _ => exact ⟨Nat.two_pow_pos 64, List.Pairwise.nil, fun y hy => absurd hy List.not_mem_nil⟩
  | map u k t _ => exact ⟨Nat.two_pow_pos 64, List.Pairwise.nil, fun y hy => absurd hy List.not_mem_nil⟩

theorem read_valid (less : Less) (hl : ∀ t, Strict (less.elem t)) (hk : ∀ k, Strict (less.key k)) (t : Ty) (old : Val t) (ho : WF less t old)
    (hr : Ready t old) (d : List Byte) : WF less t (read less t old d).2.1 := by
  induction t generalizing d with
  | base t => exact base_after t old d hr.1 hr.2
  | pair a b iha ihb =>
    have h1 := iha old.1 ho.1 hr.1 d
    simp only [read]
    rcases e : read less a old.1 d with ⟨ok, x', d'⟩
    rw [e] at h1
    cases ok with
    | false => exact ⟨h1, ho.2⟩
    | true => exact ⟨h1, ihb old.2 ho.2 hr.2 d'⟩
  | vec t ih =>
    simp only [read, readContainer]
    rcases e : Binary.readBytes (Binary.toBytes 8 0) d with ⟨ok, bs, d'⟩
    cases ok with
    | false => exact ho
    | true =>
      have hr := Binary.resize_spec (fresh := default t) (Binary.ofBytes bs) old (fun o => WF less t o ∧ Ready t o)
        ⟨wf_default less t, ready_default t⟩ (fun o h => ⟨ho.2 o h, hr o h⟩)
      obtain ⟨h1, h2⟩ := readRange_after (P := WF less t) (Q := fun o => WF less t o ∧ Ready t o) (fun _ h => h.1)
        (fun o d h => ih o h.1 h.2 d) _ hr.2 d'
      refine ⟨?_, h2⟩
      rw [hr.1] at h1
      exact h1 ▸ readBytes_size e
  | set u t ih =>
    simp only [read, readContainer]
    rcases e : Binary.readBytes (Binary.toBytes 8 0) d with ⟨ok, bs, d'⟩
    cases ok with
    | false => exact ho
    | true =>
      have hn : old = ([] : List (Val t)) := hr
      obtain ⟨h1, h2, h3⟩ := readEmplace_after (P := WF less t) (S := Sorted u (less.elem t)) (fun x l => emplace_length u _ x l)
        (fun x l hx hs hl' => ⟨emplace_sorted (hl t) x hs, fun y hy => by
          rcases emplace_keeps.2 y hy with rfl | hy
          · exact hx
          · exact hl' y hy⟩) (fun d => ih (default t) (wf_default less t) (ready_default t) d) (Binary.ofBytes bs) old ho.2.1 ho.2.2 d'
      have h4 := readBytes_size e
      have hz : List.length (show List (Val t) from old) = 0 := by rw [hn]; rfl
      exact ⟨lt_of_le_of_lt h1 (by rw [hz]; omega), h2, h3⟩
  | map u k t ih =>
    simp only [read, readContainer]
    rcases e : Binary.readBytes (Binary.toBytes 8 0) d with ⟨ok, bs, d'⟩
    cases ok with
    | false => exact ho
    | true =>
      have hn : old = ([] : List (Binary.Val k × Val t)) := hr
      obtain ⟨h1, h2, h3⟩ := readEmplace_after (P := fun e : Binary.Val k × Val t => Binary.WF k e.1 ∧ WF less t e.2)
        (S := Sorted u (less.entry k)) (fun x l => emplace_length u _ x l)
        (fun x l hx hs hl' => ⟨emplace_sorted (less := less.entry k) ⟨fun x => (hk k).1 _, fun x y z => (hk k).2 _ _ _⟩ x hs, fun y hy => by
          rcases emplace_keeps.2 y hy with rfl | hy
          · exact hx
          · exact hl' y hy⟩) (rd := readEntry k (read less t)) (fresh := (Binary.default k, default t)) (fun d => by
            simp only [readEntry]
            rcases matchConst k (Binary.default k) d with ⟨ok, d'⟩
            cases ok with
            | false => exact ⟨Binary.wf_default k, wf_default less t⟩
            | true => exact ⟨Binary.wf_default k, ih (default t) (wf_default less t) (ready_default t) d'⟩) (Binary.ofBytes bs) old ho.2.1 ho.2.2 d'
      have h4 := readBytes_size e
      have hz : List.length (show List (Binary.Val k × Val t) from old) = 0 := by rw [hn]; rfl
      exact ⟨lt_of_le_of_lt h1 (by rw [hz]; omega), h2, h3⟩

/-- **C151** Whatever the bytes and whether or not reading succeeds: the object is valid afterwards, all sets and maps in it are sorted by their comparison, and those that are
unique have no equivalent elements. -/
theorem read_any_valid (less : Less) (hl : ∀ t, Strict (less.elem t)) (hk : ∀ k, Strict (less.key k)) {t : Ty} {old y : Val t} (ho : WF less t old)
    (hr : Ready t old) {d r : List Byte} {ok : Bool} (h : readBack less t old d = some (ok, y, r)) : WF less t y := by
  unfold readBack at h
  split at h
  · have := read_valid less hl hk t old ho hr d
    rw [Option.some.inj h] at this
    exact this
  · simp at h

example (d r : List Byte) (ok : Bool) (y : Val exTy) (h : readBack exLess exTy (default exTy) d = some (ok, y, r)) : WF exLess exTy y :=
  read_any_valid exLess
    (fun t => by
      match t with
      | .base (.arith n) => exact ⟨fun x => by simp [exLess], fun x y z => by simp only [exLess, decide_eq_true_eq]; omega⟩
      | .base .unit | .base (.pair _ _) | .base (.array _ _) | .base (.vec _) | .base (.seq _) | .pair _ _ | .vec _ | .set _ _ | .map _ _ _ =>
        exact ⟨fun _ => rfl, fun _ _ _ h _ => h⟩)
    (fun k => by
      match k with
      | .arith n => exact ⟨fun x => by simp [exLess], fun x y z => by simp only [exLess, decide_eq_true_eq]; omega⟩
      | .unit | .pair _ _ | .array _ _ | .vec _ | .seq _ => exact ⟨fun _ => rfl, fun _ _ _ h _ => h⟩)
    (wf_default _ _) (ready_default _) h

/-! ### Sets of numbers, tuples and containers -/

/-- Inserting one after the other. -/
def insertAll (u : Bool) (less : α → α → Bool) (vs : List α) (l : List α) : List α := vs.foldl (fun l v => emplace u less v l) l

theorem readEmplace_iff {u : Bool} {less : α → α → Bool} {rd : α → List Byte → Bool × α × List Byte} {w : α → List Byte} {P : α → Prop} {fresh : α}
    (hrd : ∀ d v r, rd fresh d = (true, v, r) ↔ P v ∧ d = w v ++ r) (n : Nat) (xs ys : List α) (d r : List Byte) :
    readEmplace (emplace u less) rd fresh n xs d = (true, ys, r) ↔
      ∃ vs, vs.length = n ∧ (∀ v ∈ vs, P v) ∧ d = Binary.writeAll w vs ++ r ∧ ys = insertAll u less vs xs := by
  induction n generalizing xs d with
  | zero =>
    simp only [readEmplace, Prod.mk.injEq, true_and]
    constructor
    · rintro ⟨rfl, rfl⟩
      exact ⟨[], rfl, by simp, rfl, rfl⟩
    · rintro ⟨vs, h, -, h1, h2⟩
      obtain rfl := List.length_eq_zero_iff.mp h
      exact ⟨h2.symm, h1⟩
  | succ n ih =>
    constructor
    · intro h
      rw [readEmplace] at h
      rcases h1 : rd fresh d with ⟨ok, x, d'⟩
      rw [h1] at h
      cases ok with
      | false => simp at h
      | true =>
        obtain ⟨vs, i1, i2, i3, i4⟩ := (ih _ _).mp h
        obtain ⟨j1, j2⟩ := (hrd _ _ _).mp h1
        refine ⟨x :: vs, by simp [i1], ?_, by rw [Binary.writeAll, List.append_assoc, ← i3, j2], i4⟩
        intro v hv
        rcases List.mem_cons.mp hv with rfl | hv
        · exact j1
        · exact i2 v hv
    · rintro ⟨vs, h1, h2, rfl, rfl⟩
      match vs, h1 with
      | v :: vs, h1 =>
        have := (hrd (Binary.writeAll w (v :: vs) ++ r) v (Binary.writeAll w vs ++ r)).mpr
          ⟨h2 v (by simp), by rw [Binary.writeAll, List.append_assoc]⟩
        simp only [readEmplace, this]
        exact (ih _ _).mpr ⟨vs, by simpa using h1, fun x hx => h2 x (by simp [hx]), rfl, rfl⟩

theorem insertAll_content {less : α → α → Bool} (hl : Strict less) (u : Bool) (vs : List α) {l : List α} (hs : Sorted u less l) :
    Sorted u less (insertAll u less vs l) ∧ (∀ e ∈ l, e ∈ insertAll u less vs l) ∧ (∀ e ∈ insertAll u less vs l, e ∈ l ∨ e ∈ vs) ∧
      (u = true → ∀ v ∈ vs, ∃ e ∈ insertAll u less vs l, e = v ∨ (less e v = false ∧ less v e = false)) ∧
      (u = false → (insertAll u less vs l).Perm (l ++ vs)) := by
  induction vs generalizing l with
  | nil => exact ⟨hs, fun _ h => h, fun _ h => .inl h, fun _ _ h => absurd h List.not_mem_nil, fun _ => by simp [insertAll]⟩
  | cons v vs ih =>
    obtain ⟨h1, h2, h3, h4, h5⟩ := ih (emplace_sorted hl v hs)
    refine ⟨h1, fun e he => h2 e (emplace_keeps.1 e he), fun e he => ?_, fun hu x hx => ?_, fun hu => ?_⟩
    · rcases h3 e he with h | h
      · rcases emplace_keeps.2 e h with rfl | h
        · exact .inr (by simp)
        · exact .inl h
      · exact .inr (by simp [h])
    · rcases List.mem_cons.mp hx with rfl | hx
      · subst hu
        obtain ⟨e, he, h⟩ := emplace_covers less x l
        exact ⟨e, h2 e he, h⟩
      · exact h4 hu x hx
    · refine (h5 hu).trans ?_
      subst hu
      exact ((emplace_perm less v l).append_right vs).trans List.perm_middle.symm

theorem writeAll_image (t : Binary.Ty) (vs : List (Binary.Val t)) : Binary.writeAll (Binary.write t) vs = vs.flatMap (Binary.image t) := by
  induction vs with
  | nil => rfl
  | cons v vs ih => rw [Binary.writeAll, ih, Binary.write_image, List.flatMap_cons]

theorem readContainer_iff (t : Binary.Ty) (u : Bool) (L : Binary.Val t → Binary.Val t → Bool) (d r : List Byte) (y : List (Binary.Val t)) :
    readContainer [] (fun n => readEmplace (emplace u L) (Binary.read t) (Binary.default t) n []) d = (true, y, r) ↔
      ∃ vs : List (Binary.Val t), vs.length < 2 ^ 64 ∧ (∀ v ∈ vs, Binary.WF t v) ∧
        d = Binary.toBytes 8 vs.length ++ vs.flatMap (Binary.image t) ++ r ∧ y = insertAll u L vs [] := by
  have key := fun n xs ys d r => readEmplace_iff (u := u) (less := L) (rd := Binary.read t) (w := Binary.write t) (P := Binary.WF t)
    (fresh := Binary.default t) (fun d v r => by
      rw [Binary.write_image]
      exact Binary.read_success_iff t _ v d r (Binary.wf_default t) (Binary.noSeq_default t)) n xs ys d r
  constructor
  · intro h
    rw [readContainer] at h
    rcases hb : Binary.readBytes (Binary.toBytes 8 0) d with ⟨ok, bs, d'⟩
    rw [hb] at h
    cases ok with
    | false => simp at h
    | true =>
      obtain ⟨vs, h1, h2, h3, h4⟩ := (key _ _ _ _ _).mp h
      obtain ⟨hl, hd⟩ := Binary.readBytes_sound hb
      rw [Binary.toBytes_length] at hl
      have ht := Binary.toBytes_ofBytes bs
      rw [hl, ← h1] at ht
      exact ⟨vs, h1 ▸ readBytes_size hb, h2, by rw [hd, h3, ht, writeAll_image, List.append_assoc], h4⟩
  · rintro ⟨vs, h1, h2, rfl, rfl⟩
    rw [readContainer, List.append_assoc, Binary.readBytes_append _ _ _ (by rw [Binary.toBytes_length, Binary.toBytes_length])]
    simp only
    rw [Binary.ofBytes_toBytes _ _ (lt_of_lt_of_le h1 (by norm_num)), ← writeAll_image]
    exact (key _ _ _ _ _).mpr ⟨vs, rfl, h2, rfl, rfl⟩

theorem read_set_iff (less : Less) (u : Bool) (t : Binary.Ty) (d r : List Byte) (y : List (Binary.Val t)) :
    read less (.set u (.base t)) ([] : List (Binary.Val t)) d = (true, y, r) ↔
      ∃ vs : List (Binary.Val t), vs.length < 2 ^ 64 ∧ (∀ v ∈ vs, Binary.WF t v) ∧
        d = Binary.toBytes 8 vs.length ++ vs.flatMap (Binary.image t) ++ r ∧ y = insertAll u (less.elem (.base t)) vs [] :=
  readContainer_iff t u (less.elem (.base t)) d r y

/-- **C151** A set or multiset of numbers, tuples or containers read successfully from any bytes: these are a number of elements and that many elements, in any order and with any
repetitions. The set is sorted, has an equivalent of each of them and nothing else; a multiset has all of them. -/
theorem read_set_content (less : Less) (u : Bool) (t : Binary.Ty) (hl : Strict (less.elem (.base t))) (d r : List Byte) (y : List (Binary.Val t))
    (h : read less (.set u (.base t)) ([] : List (Binary.Val t)) d = (true, y, r)) :
    ∃ vs : List (Binary.Val t), (∀ v ∈ vs, Binary.WF t v) ∧ d = Binary.toBytes 8 vs.length ++ vs.flatMap (Binary.image t) ++ r ∧
      Sorted u (less.elem (.base t)) y ∧ (∀ e ∈ y, e ∈ vs) ∧
      (u = true → ∀ v ∈ vs, ∃ e ∈ y, e = v ∨ (less.elem (.base t) e v = false ∧ less.elem (.base t) v e = false)) ∧
      (u = false → y.Perm vs) := by
  obtain ⟨vs, -, h2, h3, rfl⟩ := (read_set_iff less u t d r y).mp h
  obtain ⟨i1, -, i3, i4, i5⟩ := insertAll_content hl u vs (l := []) List.Pairwise.nil
  exact ⟨vs, h2, h3, i1, fun e he => (i3 e he).resolve_left List.not_mem_nil, i4, i5⟩

/-- **C151** Every such sequence of bytes is read successfully, up to its end. -/
theorem read_set_accepts (less : Less) (u : Bool) (t : Binary.Ty) (vs : List (Binary.Val t)) (hn : vs.length < 2 ^ 64) (hv : ∀ v ∈ vs, Binary.WF t v)
    (r : List Byte) : ∃ y, read less (.set u (.base t)) ([] : List (Binary.Val t)) (Binary.toBytes 8 vs.length ++ vs.flatMap (Binary.image t) ++ r) =
      (true, y, r) :=
  ⟨_, (read_set_iff less u t _ r _).mpr ⟨vs, hn, hv, rfl, rfl⟩⟩

/-- Unsorted and with a repetition. -/
example : ((show List (BitVec 8) from (read exLess (.set true (.base (.arith 1))) ([] : List (BitVec 8)) (Binary.toBytes 8 3 ++ [7#8, 5#8, 7#8, 9#8])).2.1)) =
    [5#8, 7#8] := by decide +kernel

end Actl.BinaryAssoc
