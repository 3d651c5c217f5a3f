import Verif.Spec.Binary
import Mathlib.Tactic.Ring

/-!
C24: binary serialization.
-/

namespace Actl.Binary

open Actl.Text

/-! ### Bytes -/

theorem toBytes_length (n x : Nat) : (toBytes n x).length = n := by
  induction n generalizing x with
  | zero => rfl
  | succ n ih => simp [toBytes, ih]

theorem ofBytes_toBytes (n x : Nat) (h : x < 256 ^ n) : ofBytes (toBytes n x) = x := by
  induction n generalizing x with
  | zero => simp at h; simp [toBytes, ofBytes, h]
  | succ n ih =>
    have h' : x / 256 < 256 ^ n := by
      rw [Nat.div_lt_iff_lt_mul (by decide)]
      rw [Nat.pow_succ] at h
      exact h
    simp only [toBytes, ofBytes, ih _ h', BitVec.toNat_ofNat]
    omega

theorem readBytes_append (old bs rest : List Byte) (h : bs.length = old.length) :
    readBytes old (bs ++ rest) = (true, bs, rest) := by
  unfold readBytes
  simp only
  rw [List.take_append_of_le_length (by omega), List.take_of_length_le (by omega), ← h, List.drop_left,
    List.drop_eq_nil_of_le (by omega)]
  simp

theorem readBytes_ext {old d bs r : List Byte} (q : List Byte) (h : readBytes old d = (true, bs, r)) :
    readBytes old (d ++ q) = (true, bs, r ++ q) := by
  unfold readBytes at h ⊢
  simp only [Prod.mk.injEq, decide_eq_true_eq, List.length_take] at h ⊢
  obtain ⟨h1, h2, h3⟩ := h
  have hle : old.length ≤ d.length := by omega
  rw [List.take_append_of_le_length hle, List.drop_append_of_le_length hle]
  refine ⟨?_, ?_, by rw [h3]⟩
  · simp only [List.length_append]; omega
  · rw [← h2]
    simp only [List.length_append]
    congr 2
    omega

/-! ### Loops -/

variable {α : Type}

theorem readRange_ext {rd : α → List Byte → Bool × α × List Byte}
    (hrd : ∀ x d y r q, rd x d = (true, y, r) → rd x (d ++ q) = (true, y, r ++ q)) (xs : List α)
    (d : List Byte) (ys : List α) (r q : List Byte) (h : readRange rd xs d = (true, ys, r)) :
    readRange rd xs (d ++ q) = (true, ys, r ++ q) := by
  induction xs generalizing d ys with
  | nil => simp only [readRange, Prod.mk.injEq, true_and] at h ⊢; rw [h.1, h.2]; exact ⟨rfl, rfl⟩
  | cons x xs ih =>
    simp only [readRange] at h ⊢
    rcases hx : rd x d with ⟨ok, y, d'⟩
    rw [hx] at h
    cases ok with
    | false => simp at h
    | true =>
      rcases hxs : readRange rd xs d' with ⟨ok', ys', d''⟩
      simp only [hxs, Prod.mk.injEq] at h
      obtain ⟨rfl, rfl, rfl⟩ := h
      simp only [hrd _ _ _ _ q hx, ih _ _ hxs]

theorem readEmplace_ext {rd : α → List Byte → Bool × α × List Byte} {fresh : α}
    (hrd : ∀ x d y r q, rd x d = (true, y, r) → rd x (d ++ q) = (true, y, r ++ q)) (n : Nat) (xs : List α)
    (d : List Byte) (ys : List α) (r q : List Byte) (h : readEmplace rd fresh n xs d = (true, ys, r)) :
    readEmplace rd fresh n xs (d ++ q) = (true, ys, r ++ q) := by
  induction n generalizing d xs with
  | zero => simp only [readEmplace, Prod.mk.injEq, true_and] at h ⊢; rw [h.1, h.2]; exact ⟨rfl, rfl⟩
  | succ n ih =>
    simp only [readEmplace] at h ⊢
    rcases hx : rd fresh d with ⟨ok, y, d'⟩
    rw [hx] at h
    cases ok with
    | false => simp at h
    | true => simp only [hrd _ _ _ _ q hx]; exact ih _ _ h

/-- Reading more data than needed leaves the surplus. -/
theorem read_ext (t : Ty) (x : Val t) (d : List Byte) (y : Val t) (r q : List Byte)
    (h : read t x d = (true, y, r)) : read t x (d ++ q) = (true, y, r ++ q) := by
  induction t generalizing d r q with
  | unit => simp only [read, Prod.mk.injEq, true_and] at h ⊢; exact ⟨h.1, by rw [h.2]⟩
  | arith n =>
    simp only [read] at h ⊢
    rcases hb : readBytes (toBytes n (BitVec.toNat (w := 8 * n) x)) d with ⟨ok, bs, d'⟩
    rw [hb] at h
    simp only [Prod.mk.injEq] at h
    obtain ⟨rfl, rfl, rfl⟩ := h
    rw [readBytes_ext q hb]
  | pair a b iha ihb =>
    simp only [read] at h ⊢
    rcases hx : read a x.1 d with ⟨ok, y1, d'⟩
    rw [hx] at h
    cases ok with
    | false => simp at h
    | true =>
      rcases hz : read b x.2 d' with ⟨ok', y2, d''⟩
      simp only [hz, Prod.mk.injEq] at h
      obtain ⟨rfl, rfl, rfl⟩ := h
      simp only [iha _ _ _ _ q hx, ihb _ _ _ _ q hz]
  | array n t ih => exact readRange_ext ih x d y r q h
  | vec t ih =>
    simp only [read] at h ⊢
    rcases hb : readBytes (toBytes 8 0) d with ⟨ok, bs, d'⟩
    rw [hb] at h
    cases ok with
    | false => simp at h
    | true => simp only [readBytes_ext q hb]; exact readRange_ext ih _ _ _ _ _ h
  | seq t ih =>
    simp only [read] at h ⊢
    rcases hb : readBytes (toBytes 8 0) d with ⟨ok, bs, d'⟩
    rw [hb] at h
    cases ok with
    | false => simp at h
    | true => simp only [readBytes_ext q hb]; exact readEmplace_ext ih _ _ _ _ _ _ h

/-! ### Round trip -/

theorem readRange_write {rd : α → List Byte → Bool × α × List Byte} {w : α → List Byte}
    (P Q : α → Prop) (hrd : ∀ v old rest, P v → Q old → rd old (w v ++ rest) = (true, v, rest))
    (vs olds : List α) (rest : List Byte) (hl : olds.length = vs.length) (hv : ∀ v ∈ vs, P v)
    (ho : ∀ o ∈ olds, Q o) : readRange rd olds (writeAll w vs ++ rest) = (true, vs, rest) := by
  induction vs generalizing olds with
  | nil =>
    cases olds with
    | nil => rfl
    | cons _ _ => simp at hl
  | cons v vs ih =>
    cases olds with
    | nil => simp at hl
    | cons o os =>
      simp only [readRange, writeAll, List.append_assoc]
      rw [hrd v o _ (hv v (by simp)) (ho o (by simp))]
      simp only
      rw [ih os (by simpa using hl) (fun x hx => hv x (List.mem_cons_of_mem _ hx))
        (fun x hx => ho x (List.mem_cons_of_mem _ hx))]

theorem readEmplace_write {rd : α → List Byte → Bool × α × List Byte} {w : α → List Byte} {fresh : α}
    (P : α → Prop) (hrd : ∀ v rest, P v → rd fresh (w v ++ rest) = (true, v, rest))
    (vs xs : List α) (rest : List Byte) (hv : ∀ v ∈ vs, P v) :
    readEmplace rd fresh vs.length xs (writeAll w vs ++ rest) = (true, xs ++ vs, rest) := by
  induction vs generalizing xs with
  | nil => simp [readEmplace, writeAll]
  | cons v vs ih =>
    simp only [List.length_cons, readEmplace, writeAll, List.append_assoc]
    rw [hrd v _ (hv v (by simp))]
    simp only
    rw [ih _ (fun x hx => hv x (List.mem_cons_of_mem _ hx))]
    simp

theorem noSeq_default (t : Ty) : NoSeq t (default t) := by
  induction t with
  | unit => trivial
  | arith n => trivial
  | pair a b iha ihb => exact ⟨iha, ihb⟩
  | array n t ih =>
    intro y hy
    rw [List.eq_of_mem_replicate hy]
    exact ih
  | vec t _ => intro y hy; exact absurd hy (List.not_mem_nil)
  | seq t _ => rfl

theorem wf_default (t : Ty) : WF t (default t) := by
  induction t with
  | unit => trivial
  | arith n => trivial
  | pair a b iha ihb => exact ⟨iha, ihb⟩
  | array n t ih =>
    refine ⟨List.length_replicate, fun y hy => ?_⟩
    rw [List.eq_of_mem_replicate hy]
    exact ih
  | vec t _ => exact ⟨Nat.two_pow_pos 64, fun y hy => absurd hy (List.not_mem_nil)⟩
  | seq t _ => exact ⟨Nat.two_pow_pos 64, fun y hy => absurd hy (List.not_mem_nil)⟩

theorem resize_spec {fresh : α} (n : Nat) (xs : List α) (P : α → Prop) (hf : P fresh)
    (hx : ∀ x ∈ xs, P x) : (resize fresh n xs).length = n ∧ ∀ x ∈ resize fresh n xs, P x := by
  unfold resize
  refine ⟨by simp; omega, fun x h => ?_⟩
  rcases List.mem_append.mp h with h | h
  · exact hx x (List.mem_of_mem_take h)
  · rw [List.eq_of_mem_replicate h]; exact hf

/-- **C24** Reading back what was written restores the value, for every type built from arithmetic
types, tuples, arrays, resizable and other containers nested to any depth, into any object that
contains no non-empty container without random access (a new object never does); whatever follows
is left unread. -/
theorem read_write_partial (t : Ty) (v old : Val t) (rest : List Byte) (hv : WF t v) (ho : WF t old)
    (hs : NoSeq t old) : read t old (write t v ++ rest) = (true, v, rest) := by
  induction t generalizing rest with
  | unit => rfl
  | arith n =>
    simp only [read, write]
    rw [readBytes_append _ _ _ (by rw [toBytes_length, toBytes_length])]
    simp only [Prod.mk.injEq, true_and, and_true]
    rw [ofBytes_toBytes _ _ (by
      have := (show BitVec (8 * n) from v).isLt
      rw [Nat.pow_mul] at this
      exact this)]
    refine Prod.ext ?_ rfl
    apply BitVec.eq_of_toNat_eq (n := 8 * n) (y := v)
    rw [BitVec.toNat_ofNat]
    exact Nat.mod_eq_of_lt (BitVec.isLt (w := 8 * n) v)
  | pair a b iha ihb =>
    simp only [read, write, List.append_assoc]
    rw [iha _ _ _ hv.1 ho.1 hs.1]
    simp only
    rw [ihb _ _ _ hv.2 ho.2 hs.2]
    rfl
  | array n t ih =>
    simp only [read, write]
    refine readRange_write (WF t) (fun o => WF t o ∧ NoSeq t o) (fun v o r h1 h2 => ih v o r h1 h2.1 h2.2)
      v old rest (by rw [hv.1, ho.1]) hv.2 (fun o h => ⟨ho.2 o h, hs o h⟩)
  | vec t ih =>
    simp only [read, write, List.append_assoc]
    rw [readBytes_append _ _ _ (by rw [toBytes_length, toBytes_length])]
    simp only
    rw [ofBytes_toBytes _ _ (by have := hv.1; norm_num at this ⊢; exact this)]
    have hr := resize_spec (fresh := default t) (List.length v) old (fun o => WF t o ∧ NoSeq t o)
      ⟨wf_default t, noSeq_default t⟩ (fun o h => ⟨ho.2 o h, hs o h⟩)
    exact readRange_write (WF t) (fun o => WF t o ∧ NoSeq t o) (fun v o r h1 h2 => ih v o r h1 h2.1 h2.2)
      v _ rest hr.1 hv.2 hr.2
  | seq t ih =>
    simp only [read, write, List.append_assoc]
    rw [readBytes_append _ _ _ (by rw [toBytes_length, toBytes_length])]
    simp only
    rw [ofBytes_toBytes _ _ (by have := hv.1; norm_num at this ⊢; exact this)]
    rw [readEmplace_write (WF t) (fun v r h => ih v _ r h (wf_default t) (noSeq_default t)) v old rest hv.2]
    have : old = ([] : List (Val t)) := hs
    rw [this]; rfl

/-- In particular into a new object. -/
theorem read_write_fresh (t : Ty) (v : Val t) (rest : List Byte) (hv : WF t v) :
    read t (default t) (write t v ++ rest) = (true, v, rest) :=
  read_write_partial t v _ rest hv (wf_default t) (noSeq_default t)

/-- **C24** (negation) Reading into a container without random access that is not empty *always*
fails to restore the value: the elements are appended to the old ones. -/
theorem read_seq_appends (t : Ty) (v old : List (Val t)) (rest : List Byte) (hv : WF (.seq t) v) :
    read (.seq t) old (write (.seq t) v ++ rest) = (true, (old ++ v : List (Val t)), rest) := by
  simp only [read, write, List.append_assoc]
  rw [readBytes_append _ _ _ (by rw [toBytes_length, toBytes_length])]
  simp only
  rw [ofBytes_toBytes _ _ (by have := hv.1; norm_num at this ⊢; exact this)]
  exact readEmplace_write (WF t) (fun v r h => read_write_fresh t v r h) v old rest hv.2

theorem read_seq_fails (t : Ty) (v old : List (Val t)) (rest : List Byte) (hv : WF (.seq t) v)
    (ho : old ≠ []) : (read (.seq t) old (write (.seq t) v ++ rest)).2.1 ≠ v := by
  rw [read_seq_appends t v old rest hv]
  intro h
  exact ho (List.append_left_eq_self.mp h)

/-- **C24** A truncated input is always rejected. -/
theorem read_truncated (t : Ty) (v old : Val t) (hv : WF t v) (ho : WF t old) (hs : NoSeq t old)
    (p : List Byte) (hp : p <+: write t v) (hne : p ≠ write t v) : (read t old p).1 = false := by
  obtain ⟨q, hq⟩ := hp
  rcases h : read t old p with ⟨ok, y, r⟩
  cases ok with
  | false => rfl
  | true =>
    have h1 := read_ext t old p y r q h
    rw [hq] at h1
    have h2 := read_write_partial t v old [] hv ho hs
    rw [List.append_nil, h1] at h2
    simp only [Prod.mk.injEq, List.append_eq_nil_iff, true_and] at h2
    exact absurd (by rw [← hq, h2.2.2, List.append_nil]) hne

/-- **C24** The encoding is prefix free and injective, so that consecutive values cannot be
confused. -/
theorem write_injective (t : Ty) (v w : Val t) (r₁ r₂ : List Byte) (hv : WF t v) (hw : WF t w)
    (h : write t v ++ r₁ = write t w ++ r₂) : v = w ∧ r₁ = r₂ := by
  have h1 := read_write_fresh t v r₁ hv
  rw [h, read_write_fresh t w r₂ hw] at h1
  simp only [Prod.mk.injEq, true_and] at h1
  exact ⟨h1.1.symm, h1.2.symm⟩

/-- Number of bytes of arithmetic values and of the length field. -/
theorem write_arith_length (n : Nat) (x : BitVec (8 * n)) : (write (.arith n) x).length = n :=
  toBytes_length _ _

/-- A vector of pairs of an integer and a list of bytes. -/
abbrev exTy : Ty := .vec (.pair (.arith 4) (.seq (.arith 1)))
def exVal : Val exTy :=
  ([((0x01020304#32 : BitVec 32), ([7#8, 8#8] : List (BitVec 8))),
    ((5#32 : BitVec 32), ([] : List (BitVec 8)))] : List (BitVec 32 × List (BitVec 8)))

example : WF exTy exVal := by
  refine ⟨by decide, fun y hy => ⟨trivial, ?_, fun _ _ => trivial⟩⟩
  rcases List.mem_cons.mp hy with rfl | hy
  · decide
  · rw [List.mem_singleton.mp hy]; decide

example : write exTy exVal = [2#8, 0#8, 0#8, 0#8, 0#8, 0#8, 0#8, 0#8,
    4#8, 3#8, 2#8, 1#8, 2#8, 0#8, 0#8, 0#8, 0#8, 0#8, 0#8, 0#8, 7#8, 8#8,
    5#8, 0#8, 0#8, 0#8, 0#8, 0#8, 0#8, 0#8, 0#8, 0#8, 0#8, 0#8] := by decide +kernel

end Actl.Binary
