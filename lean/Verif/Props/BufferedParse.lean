import Verif.Props.Buffered
import Verif.Props.Parser
import Verif.Props.IntParse

/-!
C22, continued: values parsed through a buffered reader.
-/

namespace Actl.Buffered

open Actl.Text Actl.Parser

variable {σ : Type} {inv : σ → Prop} {parse : σ → List Byte → Option (Nat × σ)}

theorem stepLaw_bound (h : StepLaw inv parse) (s : List Byte) : ∀ st, inv st → s ≠ [] →
    ∃ n st', parse st s = some (n, st') ∧ n ≤ s.length ∧ inv st' := by
  induction s with
  | nil => intro _ _ hs; exact absurd rfl hs
  | cons c t ih =>
    intro st hi _
    obtain ⟨n, st', hp, hn, hi'⟩ := h.one st c hi
    by_cases ht : t = []
    · subst ht; exact ⟨n, st', hp, hn, hi'⟩
    · have hs := h.step st c t hi ht
      rw [hp] at hs
      simp only at hs
      by_cases h1 : n = 1
      · obtain ⟨m, st'', hp2, hm, hi2⟩ := ih st' hi' ht
        rw [if_pos h1, hp2] at hs
        exact ⟨_, _, hs, by simp only [List.length_cons]; omega, hi2⟩
      · rw [if_neg h1] at hs
        exact ⟨_, _, hs, by simp only [List.length_cons]; omega, hi'⟩

/-- The driver on a reader that has been read from: there is a way to cut the remaining data into
non-empty chunks such that it consumes and computes what the driver does on these chunks; and the
reader is left exactly after the consumed characters. -/
theorem drive_exec {B : Nat} (hB : 0 < B) (h : StepLaw inv parse) {data : List Byte} :
    ∀ (fuel : Nat) (st : σ) (r : Reader) (pos : Nat), inv st → Rel data pos r → Primed r →
      pos ≤ data.length → data.length - pos < fuel →
      ∃ chunks n st' r', (∀ s ∈ chunks, s ≠ []) ∧ chunks.flatten = data.drop pos ∧
        exec parse st chunks = some (n, st') ∧ r.drive B parse fuel st = some (n, st', r') ∧
        Rel data (pos + n) r' ∧ Primed r' ∧ pos + n ≤ data.length := by
  intro fuel
  induction fuel with
  | zero => intro st r pos _ _ _ _ hf; omega
  | succ fuel ih =>
    intro st r pos hi hr hp hle hf
    have hrp : r.ptr ≤ r.buf.length := by
      obtain ⟨pre, h1, h2, h3⟩ := hr
      rcases Nat.lt_or_ge r.buf.length r.ptr with hlt | hge
      · have hrest := h3 hlt
        have : data.length = pre.length + r.buf.length := by rw [h1, hrest]; simp
        omega
      · exact hge
    have hd := drop_rel hr hrp
    have hib : r.inputBuffer = some (r.buf.drop r.ptr) := by
      unfold Reader.inputBuffer; rw [if_pos hrp]
    by_cases hemp : r.buf.drop r.ptr = []
    · have hrest : r.rest = [] := by
        rcases hp with hp | hp
        · have := congrArg List.length hemp
          simp at this
          omega
        · exact hp
      refine ⟨[], 0, st, r, by simp, by rw [hd, hemp, hrest]; rfl, rfl, ?_, by simpa using hr, hp, hle⟩
      simp [Reader.drive, hib, hemp]
    · have hne : (r.buf.drop r.ptr).isEmpty = false := by simpa using hemp
      obtain ⟨n, st', hps, hn, hi'⟩ := stepLaw_bound h _ st hi hemp
      simp only [List.length_drop] at hn
      have hm := move_rel (n := n) hB hr hp (by left; omega)
      have hlen := congrArg List.length hd
      simp only [List.length_append, List.length_drop] at hlen
      have hpos : 0 < r.buf.length - r.ptr := by
        have := List.length_pos_iff.mpr hemp
        simpa using this
      by_cases hfull : n = (r.buf.drop r.ptr).length
      · obtain ⟨chunks, m, st'', r', c1, c2, c3, c4, c5, c6, c7⟩ :=
          ih st' (r.move B n) (pos + n) hi' hm.1 hm.2 (by omega) (by
            simp only [List.length_drop] at hfull; omega)
        refine ⟨r.buf.drop r.ptr :: chunks, n + m, st'', r', ?_, ?_, ?_, ?_, ?_, c6, by omega⟩
        · intro s hs
          rcases List.mem_cons.mp hs with rfl | hs
          · exact hemp
          · exact c1 s hs
        · rw [List.flatten_cons, c2, ← List.drop_drop, hd, hfull, List.drop_left]
        · rw [exec]
          simp only [hne, Bool.false_eq_true, if_false, hps]
          rw [if_pos hfull, c3]
        · simp only [Reader.drive, hib, hne, Bool.false_eq_true, if_false, hps]
          rw [if_pos hfull, c4]
        · rw [← Nat.add_assoc]; exact c5
      · refine ⟨r.buf.drop r.ptr :: (if r.rest = [] then [] else [r.rest]), n, st', r.move B n,
          ?_, ?_, ?_, ?_, hm.1, hm.2, by omega⟩
        · intro s hs
          rcases List.mem_cons.mp hs with rfl | hs
          · exact hemp
          · split at hs
            · simp at hs
            · simp only [List.mem_singleton] at hs; subst hs; assumption
        · rw [List.flatten_cons, hd]
          split
          · rename_i h0; simp [h0]
          · simp
        · rw [exec]
          simp only [hne, Bool.false_eq_true, if_false, hps]
          rw [if_neg hfull]
        · simp only [Reader.drive, hib, hne, Bool.false_eq_true, if_false, hps]
          rw [if_neg hfull]

/-- **C22** A parser driven through a buffered reader of any size that has been read from (`read k`
first) consumes and computes exactly what it would on the remaining data in one piece, and
terminates; reading can continue after it. -/
theorem drive_correct {B : Nat} (hB : 0 < B) (h : StepLaw inv parse) (data : List Byte) (k : Nat)
    (st : σ) (hi : inv st) (hne : data.drop k ≠ []) {fuel : Nat} (hf : data.length - k < fuel) :
    ∃ r r' n st', (Reader.fresh data).read B k = some (data.take k, r) ∧
      r.drive B parse fuel st = some (n, st', r') ∧
      parse st (data.drop k) = some (n, st') ∧
      ∀ ops, Follows data (k + n) ops (r'.run B ops) := by
  have hk : k < data.length := by
    rcases Nat.lt_or_ge k data.length with hlt | hge
    · exact hlt
    · exact absurd (List.drop_eq_nil_of_le hge) hne
  have h0 : Rel data 0 (Reader.fresh data) := ⟨[], by simp [Reader.fresh], rfl, by simp [Reader.fresh]⟩
  obtain ⟨r, h1, h2, h3⟩ := read_rel hB h0 (Nat.le_refl _) k
  rw [show 0 + min k (data.length - 0) = k by omega] at h2
  obtain ⟨chunks, n, st', r', c1, c2, c3, c4, c5, c6, c7⟩ :=
    drive_exec hB h fuel st r k hi h2 h3 (by omega) hf
  refine ⟨r, r', n, st', by simpa using h1, c4, ?_, fun ops => primed_follows hB ops c5 c6⟩
  rw [← c3, exec_join h chunks c1 (by rw [c2]; exact hne) st hi, c2]

/-- For integers: the value read through the buffer is the value read from the data in one piece. -/
theorem readInt_buffered (w : Nat) (signed : Bool) (base : Nat) {B : Nat} (hB : 0 < B)
    (data : List Byte) (k : Nat) (hne : data.drop k ≠ []) {fuel : Nat} (hf : data.length - k < fuel) :
    ∃ r r' n st', (Reader.fresh data).read B k = some (data.take k, r) ∧
      r.drive B (IntText.intParse w signed) fuel (.init base) = some (n, st', r') ∧
      IntText.readInt w signed base [data.drop k] =
        some (n, if IntText.intReady st' then some (IntText.intValue w signed st') else none) ∧
      ∀ ops, Follows data (k + n) ops (r'.run B ops) := by
  obtain ⟨r, r', n, st', h1, h2, h3, h4⟩ :=
    drive_correct hB (IntText.intParse_stepLaw w signed) data k (.init base) trivial hne hf
  refine ⟨r, r', n, st', h1, h2, ?_, h4⟩
  unfold IntText.readInt
  rw [exec_single _ _ _ hne, h3]

example : ∃ r r' n st', (Reader.fresh (bytes "#12345 x")).read 2 1 = some (bytes "#", r) ∧
    r.drive 2 (IntText.intParse 32 true) 9 (.init 10) = some (n, st', r') ∧
    n = 5 ∧ IntText.intValue 32 true st' = 12345 ∧ (r'.get 2).1 = lit ' ' :=
  ⟨_, _, _, _, rfl, rfl, by decide +kernel, by decide +kernel, by decide +kernel⟩

end Actl.Buffered
