import Verif.Props.BinaryTotal

/-!
C157: binary encodings tell values, and sequences of values, apart.
-/

namespace Actl.Binary

open Actl.Text

/-- **C157** Where the encoding of a value ends is told by the encoding itself: two inputs that begin with encodings of values of
one type and are the same have the same value and the same rest. -/
theorem write_split (t : Ty) {v w : Val t} (hv : WF t v) (hw : WF t w) {r r' : List Byte}
    (h : write t v ++ r = write t w ++ r') : v = w ∧ r = r' := by
  have h1 := read_write_partial t v (default t) r hv (wf_default t) (noSeq_default t)
  have h2 := read_write_partial t w (default t) r' hw (wf_default t) (noSeq_default t)
  rw [h, h2] at h1
  simp only [Prod.mk.injEq, true_and] at h1
  exact ⟨h1.1.symm, h1.2.symm⟩

/-- **C157** Different values of one type have different bytes, and no encoding is the beginning of another one. -/
theorem write_prefix (t : Ty) {v w : Val t} (hv : WF t v) (hw : WF t w) (h : write t v <+: write t w) : v = w := by
  obtain ⟨r, h⟩ := h
  exact (write_split t hv hw (r := r) (r' := []) (by rw [h, List.append_nil])).1

/-- What is written by one call after another, the types may differ. -/
def writes : List (Σ t : Ty, Val t) → List Byte
  | [] => []
  | v :: vs => write v.1 v.2 ++ writes vs

/-- **C157** Programs that write values of the same types one after the other write the same bytes only if the values are the same;
also if one of them is only a beginning of the other. -/
theorem writes_prefix (vs ws : List (Σ t : Ty, Val t)) (ht : vs.map Sigma.fst = ws.map Sigma.fst) (hv : ∀ v ∈ vs, WF v.1 v.2)
    (hw : ∀ w ∈ ws, WF w.1 w.2) (h : writes vs <+: writes ws) : vs = ws := by
  induction vs generalizing ws with
  | nil =>
    rw [List.map_nil] at ht
    exact (List.map_eq_nil_iff.mp ht.symm).symm
  | cons v vs ih =>
    match ws, ht with
    | w :: ws, ht =>
      obtain ⟨t, v⟩ := v
      obtain ⟨t', w⟩ := w
      simp only [List.map_cons, List.cons.injEq] at ht
      obtain ⟨rfl, ht⟩ := ht
      obtain ⟨r, h⟩ := h
      simp only [writes, List.append_assoc] at h
      obtain ⟨rfl, h'⟩ := write_split t (hv _ List.mem_cons_self) (hw _ List.mem_cons_self) h
      rw [ih ws ht (fun x hx => hv x (List.mem_cons_of_mem _ hx)) (fun x hx => hw x (List.mem_cons_of_mem _ hx)) ⟨r, h'⟩]

/-- **C157** Any number of values of one type whose encodings are not empty: the bytes tell the values and how many there are. -/
theorem writeAll_injective (t : Ty) (hne : ∀ v : Val t, write t v ≠ []) (vs ws : List (Val t)) (hv : ∀ v ∈ vs, WF t v)
    (hw : ∀ w ∈ ws, WF t w) (h : writeAll (write t) vs = writeAll (write t) ws) : vs = ws := by
  induction vs generalizing ws with
  | nil =>
    cases ws with
    | nil => rfl
    | cons w ws =>
      simp only [writeAll] at h
      exact absurd (List.append_eq_nil_iff.mp h.symm).1 (hne w)
  | cons v vs ih =>
    cases ws with
    | nil =>
      simp only [writeAll] at h
      exact absurd (List.append_eq_nil_iff.mp h).1 (hne v)
    | cons w ws =>
      simp only [writeAll] at h
      obtain ⟨rfl, h'⟩ := write_split t (hv v List.mem_cons_self) (hw w List.mem_cons_self) h
      rw [ih ws (fun x hx => hv x (List.mem_cons_of_mem _ hx)) (fun x hx => hw x (List.mem_cons_of_mem _ hx)) h']

/-- The types must be the same: one number of two bytes and two of one byte. -/
theorem writes_types_fail : ∃ vs ws : List (Σ t : Ty, Val t), vs ≠ ws ∧ writes vs = writes ws :=
  ⟨[⟨.arith 2, (0x0201 : BitVec 16)⟩], [⟨.arith 1, (1 : BitVec 8)⟩, ⟨.arith 1, (2 : BitVec 8)⟩], fun h => by
    have := congrArg List.length h
    simp at this, by decide +kernel⟩

/-- A vector of bytes and a number of two bytes: the sizes are part of the encoding. -/
example : WF (.vec (.arith 1)) [(1 : BitVec 8), (2 : BitVec 8)] ∧
    writes [⟨.vec (.arith 1), [(1 : BitVec 8), (2 : BitVec 8)]⟩, ⟨.arith 2, (5 : BitVec 16)⟩] = [2, 0, 0, 0, 0, 0, 0, 0, 1, 2, 5, 0] := by
  refine ⟨⟨by decide, fun _ _ => trivial⟩, by decide +kernel⟩

end Actl.Binary
