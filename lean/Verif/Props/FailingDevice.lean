import Verif.Model.FailingDevice
import Verif.Props.TextDevice
import Verif.Props.BinaryDevice

/-!
C147: writing to a device that fails.
-/

namespace Actl.Failing

open Actl.Text Actl.Buffered Actl.TextTree

variable {δ : Type} {D : Dev δ} {c : Cfg}

/-- The outcome of a writing function that had to send `s` to the device in state `d`. -/
def Outcome (D : Dev δ) (s : List Byte) (d : δ) (p : Option (Bool × DSt δ)) : Prop :=
  ∃ ok d' b n, p = some (ok, ⟨d', b⟩) ∧ n ≤ s.length ∧ D.received d' = D.received d ++ s.take n ∧ (ok = true ↔ n = s.length)

/-- The same, with the separator due after a success. -/
def OutcomeTrue (D : Dev δ) (s : List Byte) (d : δ) (p : Option (Bool × DSt δ)) : Prop :=
  ∃ ok d' b n, p = some (ok, ⟨d', b⟩) ∧ n ≤ s.length ∧ D.received d' = D.received d ++ s.take n ∧ (ok = true ↔ n = s.length) ∧
    (ok = true → b = true)

theorem OutcomeTrue.weak {s : List Byte} {d : δ} {p : Option (Bool × DSt δ)} (h : OutcomeTrue D s d p) : Outcome D s d p := by
  obtain ⟨ok, d', b, n, h1, h2, h3, h4, -⟩ := h
  exact ⟨ok, d', b, n, h1, h2, h3, h4⟩

theorem call_out (hD : D.Honest) (op : WOp) (d : δ) :
    ∃ ok d' n, D.port d op = some (ok, d') ∧ n ≤ (chars op).length ∧ D.received d' = D.received d ++ (chars op).take n ∧
      (ok = true ↔ n = (chars op).length) :=
  ⟨_, _, (D.call d op).1, rfl, (hD d op).1, (hD d op).2, by simp⟩

theorem unit_out (hD : D.Honest) (sep : Bool) (d : δ) :
    ∃ ok d' n, unitDev D.port c ⟨d, sep⟩ = some (ok, ⟨d', true⟩) ∧ n ≤ (spc c sep).length ∧
      D.received d' = D.received d ++ (spc c sep).take n ∧ (ok = true ↔ n = (spc c sep).length) := by
  obtain ⟨ok, d', n, h1, h2, h3, h4⟩ := call_out hD (.write (spc c sep)) d
  exact ⟨ok, d', n, by simp only [unitDev]; rw [show (if sep = true then c.space else []) = spc c sep from rfl, h1]; rfl, h2, h3, h4⟩

/-- One after the other. -/
theorem out_then {s s' : List Byte} {d : δ} {p : Option (Bool × DSt δ)} {f : DSt δ → Option (Bool × DSt δ)} (hp : OutcomeTrue D s d p)
    (hf : ∀ d, Outcome D s' d (f ⟨d, true⟩)) : Outcome D (s ++ s') d (andThen p f) := by
  obtain ⟨ok, d', b, n, rfl, h2, h3, h4, h5⟩ := hp
  cases ok with
  | false =>
    refine ⟨false, d', b, n, rfl, by simp; omega, ?_, ?_⟩
    · rw [h3, List.take_append_of_le_length h2]
    · simp only [Bool.false_eq_true, false_iff, List.length_append] at h4 ⊢
      omega
  | true =>
    obtain rfl := h5 rfl
    have hn := h4.mp rfl
    obtain ⟨ok, d'', b, m, g1, g2, g3, g4⟩ := hf d'
    refine ⟨ok, d'', b, s.length + m, by simp [andThen, g1], by simp; omega, ?_, ?_⟩
    · rw [g3, h3, hn, List.take_length, List.append_assoc, List.take_length_add_append]
    · rw [g4, List.length_append]
      omega

theorem out_then_true {s s' : List Byte} {d : δ} {p : Option (Bool × DSt δ)} {f : DSt δ → Option (Bool × DSt δ)} (hp : OutcomeTrue D s d p)
    (hf : ∀ d, OutcomeTrue D s' d (f ⟨d, true⟩)) : OutcomeTrue D (s ++ s') d (andThen p f) := by
  obtain ⟨ok, d', b, n, h1, h2, h3, h4⟩ := out_then hp fun d => (hf d).weak
  refine ⟨ok, d', b, n, h1, h2, h3, h4, ?_⟩
  rintro rfl
  obtain ⟨ok1, d1, b1, n1, rfl, -, -, -, h5⟩ := hp
  cases ok1 with
  | false => simp [andThen] at h1
  | true =>
    obtain rfl := h5 rfl
    obtain ⟨ok2, d2, b2, n2, g1, -, -, -, g5⟩ := hf d1
    simp only [andThen, Option.bind_some, if_true, g1, Option.some.injEq, Prod.mk.injEq, DSt.mk.injEq] at h1
    obtain ⟨rfl, -, rfl⟩ := h1
    exact g5 rfl

theorem unit_outcome (hD : D.Honest) (sep : Bool) (d : δ) : OutcomeTrue D (spc c sep) d (unitDev D.port c ⟨d, sep⟩) := by
  obtain ⟨ok, d', n, h1, h2, h3, h4⟩ := unit_out (c := c) hD sep d
  exact ⟨ok, d', true, n, h1, h2, h3, h4, fun _ => rfl⟩

theorem call_text (tok : Token) : chars (tok.call (tok.text c)) = tok.text c := by
  cases tok <;> simp [Token.call, chars, Token.text]

theorem leaf_out (hD : D.Honest) (tok : Token) (sep : Bool) (d : δ) :
    OutcomeTrue D (body c sep [tok]) d (writeLeafDev D.port c (some (tok.call (tok.text c))) ⟨d, sep⟩) := by
  simp only [writeLeafDev, Option.bind_some, body, List.append_nil]
  refine out_then_true (unit_outcome hD sep d) fun d => ?_
  obtain ⟨ok, d', n, h1, h2, h3, h4⟩ := call_out hD (tok.call (tok.text c)) d
  rw [call_text] at h2 h3 h4
  exact ⟨ok, d', true, n, by simp [h1], h2, h3, h4, fun _ => rfl⟩

theorem deeper_out (hD : D.Honest) (sep : Bool) {f : DSt δ → Option (Bool × DSt δ)} {s : List Byte} (hf : ∀ d, Outcome D s d (f ⟨d, false⟩)) (d : δ) :
    OutcomeTrue D (spc c sep ++ s) d (andThen (unitDev D.port c ⟨d, sep⟩) (deeperDev f)) := by
  refine out_then_true (unit_outcome hD sep d) fun d => ?_
  obtain ⟨ok, d', b, n, h1, h2, h3, h4⟩ := hf d
  refine ⟨ok, d', true, n, ?_, h2, h3, h4, fun _ => rfl⟩
  simp only [deeperDev, DSt.level]
  simp [h1]

theorem size_out (hb : 2 ≤ c.num.base ∧ c.num.base ≤ 36) (hD : D.Honest) {n : Nat} (hn : n < 2 ^ 63) (sep : Bool) (d : δ) :
    OutcomeTrue D (body c sep [.number 64 false n]) d (writeSizeDev D.port c n ⟨d, sep⟩) := by
  rw [writeSizeDev, encode_some hb (size_range hn), Option.map_some, body_sep (by simp)]
  exact deeper_out hD sep (fun d => (leaf_out hD (.number 64 false n) false d).weak) d

theorem all_out {α : Type} {w : α → DSt δ → Option (Bool × DSt δ)} {tk : α → List Token} (xs : List α)
    (hne : ∀ x, tk x ≠ []) (h : ∀ x ∈ xs, ∀ d sep, OutcomeTrue D (body c sep (tk x)) d (w x ⟨d, sep⟩)) :
    ∀ (d : δ) (sep : Bool), Outcome D (body c sep (xs.flatMap tk)) d (writeAllDev w xs ⟨d, sep⟩) := by
  induction xs with
  | nil => intro d sep; exact ⟨true, d, sep, 0, rfl, by simp [body], by simp [body], by simp [body]⟩
  | cons x xs ih =>
    intro d sep
    rw [List.flatMap_cons, body_append (hne x), writeAllDev]
    exact out_then (h x (by simp) d sep) fun d => ih (fun y hy => h y (by simp [hy])) d true

mutual

theorem write_out (hb : 2 ≤ c.num.base ∧ c.num.base ≤ 36) (hD : D.Honest) (t : Ty) (x : Val t) (hv : Valid t x) (d : δ) (sep : Bool) :
    OutcomeTrue D (body c sep (tokens t x)) d (writeDev D.port c t x ⟨d, sep⟩) := by
  match t with
  | .int w s =>
    rw [Valid] at hv
    rw [writeDev, tokens, encode_some hb hv]
    exact leaf_out hD _ sep d
  | .bool => rw [writeDev, tokens]; exact leaf_out hD (.flag x) sep d
  | .char => rw [writeDev, tokens]; exact leaf_out hD (.char x) sep d
  | .str => rw [writeDev, tokens]; exact leaf_out hD (.word x) sep d
  | .tuple .nil =>
    rw [writeDev, tokens, body_sep (by simp)]
    refine deeper_out hD sep (fun d => ⟨true, d, false, 0, rfl, ?_, ?_, ?_⟩) d <;> simp [body, spc, Token.text]
  | .tuple (.cons t ts) =>
    rw [writeDev, body_sep (tokens_ne _ _)]
    exact deeper_out hD sep (fun d => writeTuple_out hb hD (.cons t ts) x hv d false) d
  | .array n t =>
    rw [Valid] at hv
    rw [writeDev, body_sep (tokens_ne _ _)]
    refine deeper_out hD sep (fun d => ?_) d
    have := all_out (c := c) (tk := tokens t) x (tokens_ne t) (fun y hy d sep => write_out hb hD t y (hv.2 y hy) d sep) d false
    rw [tokens]
    split
    · rename_i hx
      have hx : (show List (Val t) from x) = [] := List.isEmpty_iff.mp hx
      have e : body c false (List.flatMap (tokens t) (show List (Val t) from x)) = body c false [Token.nothing] := by
        rw [hx]; rfl
      rw [← e]
      exact this
    · exact this
  | .vec t =>
    rw [Valid] at hv
    rw [writeDev, tokens, body_sep (by simp)]
    refine deeper_out hD sep (fun d => ?_) d
    rw [← List.singleton_append, body_append (by simp)]
    exact out_then (size_out hb hD hv.1 false d) fun d =>
      all_out x (tokens_ne t) (fun y hy d sep => write_out hb hD t y (hv.2 y hy) d sep) d true
  | .seq t =>
    rw [Valid] at hv
    rw [writeDev, tokens, body_sep (by simp)]
    refine deeper_out hD sep (fun d => ?_) d
    rw [← List.singleton_append, body_append (by simp)]
    exact out_then (size_out hb hD hv.1 false d) fun d =>
      all_out x (tokens_ne t) (fun y hy d sep => write_out hb hD t y (hv.2 y hy) d sep) d true

theorem writeTuple_out (hb : 2 ≤ c.num.base ∧ c.num.base ≤ 36) (hD : D.Honest) (ts : Tys) (x : Vals ts) (hv : ValidTuple ts x) (d : δ)
    (sep : Bool) : Outcome D (body c sep (tokensTuple ts x)) d (writeTupleDev D.port c ts x ⟨d, sep⟩) := by
  match ts with
  | .nil => exact ⟨true, d, sep, 0, by rw [writeTupleDev], by simp [tokensTuple, body], by simp [tokensTuple, body], by simp [tokensTuple, body]⟩
  | .cons t ts =>
    rw [ValidTuple] at hv
    rw [writeTupleDev, tokensTuple, body_append (tokens_ne _ _)]
    exact out_then (write_out hb hD t x.1 hv.1 d sep) fun d => writeTuple_out hb hD ts x.2 hv.2 d true

end

/-- **C147** Writing a structured value as text to any device that tells the truth about how many characters it takes, whenever and however often it fails: the call ends, the device has
received a beginning of the text and nothing else, and success is reported exactly if that is all of the text.  In particular nothing is sent after the first failure. -/
theorem failing_write (hb : 2 ≤ c.num.base ∧ c.num.base ≤ 36) (hD : D.Honest) {t : Ty} {x : Val t} (hv : Valid t x) {s : List Byte}
    (hs : text c t x = some s) (d : δ) :
    ∃ ok d' b n, writeDev D.port c t x ⟨d, false⟩ = some (ok, ⟨d', b⟩) ∧ n ≤ s.length ∧ D.received d' = D.received d ++ s.take n ∧
      (ok = true ↔ n = s.length) := by
  have htx : s = body c false (tokens t x) := by
    rw [text, write_eq hb t x hv] at hs
    simpa using hs.symm
  rw [htx]
  exact (write_out hb hD t x hv d false).weak

theorem tuple_shows (hb : 2 ≤ c.num.base ∧ c.num.base ≤ 36) (ts : Tys) (x : Vals ts) (hv : ValidTuple ts x) :
    ∀ tok ∈ tokensTuple ts x, tok.Shows c (tok.text c) := by
  match ts with
  | .nil => simp [tokensTuple]
  | .cons t ts =>
    rw [ValidTuple] at hv
    intro tok ht
    rw [tokensTuple, List.mem_append] at ht
    exact ht.elim (text_shows hb t x.1 hv.1 tok) (tuple_shows hb ts x.2 hv.2 tok)

/-- **C147** The same for several arguments of one call of `write`: what arrives is a beginning of the texts of their pieces with a separator between any two. -/
theorem failing_args (hb : 2 ≤ c.num.base ∧ c.num.base ≤ 36) (hD : D.Honest) {ts : Tys} {x : Vals ts} (hv : ValidTuple ts x) (d : δ) :
    ∃ pieces s ok d' b n, List.Forall₂ (Token.Shows c) (tokensTuple ts x) pieces ∧ s = c.space.intercalate pieces ∧
      writeTupleDev D.port c ts x ⟨d, false⟩ = some (ok, ⟨d', b⟩) ∧ n ≤ s.length ∧ D.received d' = D.received d ++ s.take n ∧
      (ok = true ↔ n = s.length) := by
  obtain ⟨ok, d', b, n, h⟩ := writeTuple_out hb hD ts x hv d false
  rw [body_intercalate] at h
  refine ⟨(tokensTuple ts x).map (Token.text c), _, ok, d', b, n, ?_, rfl, h⟩
  rw [List.forall₂_map_right_iff, List.forall₂_same]
  exact tuple_shows hb ts x hv

theorem send_out (hD : D.Honest) (ss : List (List Byte)) (d : δ) :
    ∃ ok d' n, send D.sink ss d = some (ok, d') ∧ n ≤ ss.flatten.length ∧ D.received d' = D.received d ++ ss.flatten.take n ∧
      (ok = true ↔ n = ss.flatten.length) := by
  induction ss generalizing d with
  | nil => exact ⟨true, d, 0, rfl, by simp, by simp, by simp⟩
  | cons s ss ih =>
    obtain ⟨ok, d', n, h1, h2, h3, h4⟩ := call_out hD (.write s) d
    simp only [chars] at h2 h3 h4
    rw [send, Dev.sink, h1, List.flatten_cons]
    cases ok with
    | false =>
      refine ⟨false, d', n, by simp, by simp; omega, by rw [h3, List.take_append_of_le_length h2], ?_⟩
      simp only [Bool.false_eq_true, false_iff, List.length_append] at h4 ⊢
      omega
    | true =>
      have hn := h4.mp rfl
      obtain ⟨ok, d'', m, g1, g2, g3, g4⟩ := ih d'
      refine ⟨ok, d'', s.length + m, by simpa using g1, by rw [List.length_append]; omega, ?_, ?_⟩
      · rw [g3, h3, hn, List.take_length, List.append_assoc, List.take_length_add_append]
      · rw [g4, List.length_append]
        omega

/-- **C147** The same for binary values. -/
theorem failing_binary (hD : D.Honest) (t : Binary.Ty) (v : Binary.Val t) (d : δ) :
    ∃ ok d' n, Binary.writeDev D.sink t v d = some (ok, d') ∧ n ≤ (Binary.image t v).length ∧
      D.received d' = D.received d ++ (Binary.image t v).take n ∧ (ok = true ↔ n = (Binary.image t v).length) := by
  rw [Binary.write_send]
  exact send_out hD (Binary.spans t v) d

/-- **C147** A value whose bytes have not all arrived cannot be taken for another one: reading what has arrived fails. -/
theorem failing_binary_read (hD : D.Honest) {t : Binary.Ty} {v old : Binary.Val t} (hv : Binary.WF t v) (ho : Binary.WF t old)
    (hs : Binary.NoSeq t old) {d d' : δ} (h0 : D.received d = []) (h : Binary.writeDev D.sink t v d = some (false, d')) {B : Nat} (hB : 0 < B) :
    ∃ y r, Binary.readDev (Binary.bufferedSource B) t old (Buffered.Reader.fresh (D.received d')) = some (false, y, r) := by
  obtain ⟨ok, e, n, h1, h2, h3, h4⟩ := failing_binary hD t v d
  rw [h] at h1
  simp only [Option.some.injEq, Prod.mk.injEq] at h1
  obtain ⟨rfl, rfl⟩ := h1
  rw [h0, List.nil_append] at h3
  have hn : n ≠ (Binary.image t v).length := by simpa using h4
  rw [h3]
  refine Binary.truncated_same (Binary.buffered_delivers hB _) hv ho hs (List.take_prefix _ _) (fun e => hn ?_) (Binary.fresh_at _)
  have := congrArg List.length e
  rw [List.length_take] at this
  omega

/-- **C147** (negation) Through `io::buffered` a failure is never reported: a device behind the buffer that has room for `room` characters does not receive the text if that is longer, and `write` returns
true. -/
theorem buffered_hides (hb : 2 ≤ c.num.base ∧ c.num.base ≤ 36) {t : Ty} {x : Val t} (hv : Valid t x) {s : List Byte} (hs : text c t x = some s)
    {buf : List Byte} (hB : buf ≠ []) {room : Nat} (hr : room < s.length) :
    ∃ w, writeDev bufferedPort c t x ⟨Writer.fresh buf, false⟩ = some (true, ⟨w, true⟩) ∧ w.flush.sink.take room ≠ s := by
  obtain ⟨pieces, w, -, -, h, -⟩ := buffered_write hb hv hB (c := c)
  refine ⟨w, h, fun e => ?_⟩
  have := congrArg List.length e
  simp only [List.length_take] at this
  omega

/-! A device that takes at most the given numbers of characters in its next calls, and everything after them. -/

/-- The state is the limits of the next calls and what has been received. -/
def flaky : Dev (List Nat × List Byte) where
  call := fun d op => match d.1 with
    | [] => ((chars op).length, ([], d.2 ++ chars op))
    | k :: ks => (min k (chars op).length, (ks, d.2 ++ (chars op).take k))
  received := fun d => d.2

theorem flaky_honest : flaky.Honest := by
  rintro ⟨ks, got⟩ op
  cases ks with
  | nil => simp [flaky]
  | cons k ks =>
    refine ⟨Nat.min_le_right _ _, ?_⟩
    simp only [flaky]
    congr 1
    rcases Nat.le_total k (chars op).length with h | h
    · rw [Nat.min_eq_left h]
    · rw [Nat.min_eq_right h, List.take_of_length_le h, List.take_length]

/-- The value of C98, `2 12 false -3 true 1 7 ab`, where the eighth call, with the characters `12`, takes one of them only.  The device would take everything after that, but gets no more. -/
example : (writeDev flaky.port exCfg exTy exVal ⟨([9, 9, 9, 9, 9, 9, 9, 1], []), false⟩).map (fun p => (p.1, p.2.dev.2)) =
    some (false, bytes "2 1") := by decide +kernel
example : ∃ ok d' b n, writeDev flaky.port exCfg exTy exVal ⟨([9, 9, 9, 9, 9, 9, 9, 1], []), false⟩ = some (ok, ⟨d', b⟩) ∧ n ≤ 25 ∧
    d'.2 = [] ++ (bytes "2 12 false -3 true 1 7 ab").take n ∧ (ok = true ↔ n = 25) :=
  failing_write (c := exCfg) (s := bytes "2 12 false -3 true 1 7 ab") (by decide) flaky_honest exVal_valid (by decide +kernel) _

/-- A vector of two numbers of two bytes; the second call takes one byte of the two. -/
example : (Binary.writeDev flaky.sink (.vec (.arith 2)) ([0x0201#16, 0x0403#16] : List (BitVec 16)) ([8, 1], [])).map
    (fun p => (p.1, p.2.2)) = some (false, [2#8, 0#8, 0#8, 0#8, 0#8, 0#8, 0#8, 0#8, 1#8]) := by decide +kernel

end Actl.Failing
