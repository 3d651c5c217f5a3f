import Verif.Model.TextDevice
import Verif.Spec.TextDevice
import Verif.Lemmas.TextTree
import Verif.Props.Buffered

/-! What is sent to a device when a value is written. -/

namespace Actl.TextTree

open Actl.Text

variable {δ : Type} {I : δ → Prop} {c : Cfg}

/-- One span after the other, until one is not taken completely. -/
def send (wr : Sink δ) : List (List Byte) → δ → Option (Bool × δ)
  | [], d => some (true, d)
  | s :: ss, d => (wr d s).bind fun p => if p.1 then send wr ss p.2 else some p

theorem send_append {wr : Sink δ} (a b : List (List Byte)) (d : δ) :
    send wr (a ++ b) d = (send wr a d).bind fun p => if p.1 then send wr b p.2 else some p := by
  induction a generalizing d with
  | nil => simp [send]
  | cons s ss ih =>
    rw [List.cons_append, send, send]
    cases h : wr d s with
    | none => rfl
    | some p =>
      obtain ⟨ok, d'⟩ := p
      cases ok <;> simp [ih]

variable {wr : Port δ}

/-- One call after the other, until one is not complete. -/
def sendCalls (wr : Port δ) : List Buffered.WOp → δ → Option (Bool × δ)
  | [], d => some (true, d)
  | s :: ss, d => (wr d s).bind fun p => if p.1 then sendCalls wr ss p.2 else some p

theorem sendCalls_append (a b : List Buffered.WOp) (d : δ) :
    sendCalls wr (a ++ b) d = (sendCalls wr a d).bind fun p => if p.1 then sendCalls wr b p.2 else some p := by
  induction a generalizing d with
  | nil => simp [sendCalls]
  | cons s ss ih =>
    rw [List.cons_append, sendCalls, sendCalls]
    cases h : wr d s with
    | none => rfl
    | some p =>
      obtain ⟨ok, d'⟩ := p
      cases ok <;> simp [ih]

/-- The spans for the pieces of a value. -/
def spans (c : Cfg) (sep : Bool) : List Token → List Buffered.WOp
  | [] => []
  | tok :: ts => (if sep then [.write c.space] else []) ++ tok.call (tok.text c) :: spans c true ts

/-- In the states `I` the device takes spans and nothing happens for an empty one. -/
structure Takes (wr : Port δ) (I : δ → Prop) : Prop where
  keep : ∀ {d} s, I d → ∃ ok d', wr d s = some (ok, d') ∧ I d'
  empty : ∀ {d}, I d → wr d (.write []) = some (true, d)

theorem sendCalls_keep (hT : Takes wr I) (a : List Buffered.WOp) {d : δ} (hd : I d) :
    ∃ ok d', sendCalls wr a d = some (ok, d') ∧ I d' := by
  induction a generalizing d with
  | nil => exact ⟨true, d, rfl, hd⟩
  | cons s ss ih =>
    obtain ⟨ok, d', h1, h2⟩ := hT.keep s hd
    cases ok with
    | false => exact ⟨false, d', by simp [sendCalls, h1], h2⟩
    | true =>
      obtain ⟨ok, d'', h3, h4⟩ := ih h2
      exact ⟨ok, d'', by simp [sendCalls, h1, h3], h4⟩

/-- The outcome `p` of writing is that of sending the spans. -/
def Sent (wr : Port δ) (ss : List Buffered.WOp) (d : δ) (p : Option (Bool × DSt δ)) : Prop :=
  ∃ ok d' b, p = some (ok, ⟨d', b⟩) ∧ sendCalls wr ss d = some (ok, d')

theorem spans_append {sep : Bool} {a b : List Token} (h : a ≠ []) :
    spans c sep (a ++ b) = spans c sep a ++ spans c true b := by
  induction a generalizing sep with
  | nil => exact absurd rfl h
  | cons t ts ih =>
    cases ts with
    | nil => simp [spans]
    | cons u us => rw [List.cons_append, spans, ih (by simp)]; simp [spans]

theorem spans_sep {sep : Bool} {a : List Token} (h : a ≠ []) :
    spans c sep a = (if sep then [.write c.space] else []) ++ spans c false a := by
  cases a with
  | nil => exact absurd rfl h
  | cons t ts => simp [spans]

theorem spans_true {a b : List Token} : spans c true (a ++ b) = spans c true a ++ spans c true b := by
  cases a with
  | nil => simp [spans]
  | cons t ts => exact spans_append (by simp)

theorem unit_sent (hT : Takes wr I) {d : δ} (hd : I d) (sep : Bool) :
    ∃ ok d', unitDev wr c ⟨d, sep⟩ = some (ok, ⟨d', true⟩) ∧
      sendCalls wr (if sep then [.write c.space] else []) d = some (ok, d') ∧ I d' := by
  cases sep with
  | false => exact ⟨true, d, by simp [unitDev, hT.empty hd], rfl, hd⟩
  | true =>
    obtain ⟨ok, d', h1, h2⟩ := hT.keep (.write c.space) hd
    refine ⟨ok, d', by simp [unitDev, h1], ?_, h2⟩
    cases ok <;> simp [sendCalls, h1]

theorem sent_then (hT : Takes wr I) {d : δ} (hd : I d) {p : Option (Bool × DSt δ)} {ss ss' : List Buffered.WOp}
    (hp : ∃ ok d' b, p = some (ok, ⟨d', b⟩) ∧ sendCalls wr ss d = some (ok, d') ∧ (ok = true → b = true))
    {f : DSt δ → Option (Bool × DSt δ)}
    (hf : ∀ d, I d → Sent wr ss' d (f ⟨d, true⟩)) : Sent wr (ss ++ ss') d (andThen p f) := by
  obtain ⟨ok, d', b, h1, h2, h3⟩ := hp
  obtain ⟨ok', d'', k1, k2⟩ := sendCalls_keep hT ss hd
  rw [h2] at k1
  simp only [Option.some.injEq, Prod.mk.injEq] at k1
  obtain ⟨rfl, rfl⟩ := k1
  cases ok with
  | false => exact ⟨false, d', b, by simp [andThen, h1], by rw [sendCalls_append, h2]; rfl⟩
  | true =>
    rw [h3 rfl] at h1
    obtain ⟨ok, d'', b, g1, g2⟩ := hf d' k2
    exact ⟨ok, d'', b, by simp [andThen, h1, g1], by rw [sendCalls_append, h2]; simpa using g2⟩

/-- Written at one level: `separate` is set afterwards. -/
def SentTrue (wr : Port δ) (ss : List Buffered.WOp) (d : δ) (p : Option (Bool × DSt δ)) : Prop :=
  ∃ ok d' b, p = some (ok, ⟨d', b⟩) ∧ sendCalls wr ss d = some (ok, d') ∧ (ok = true → b = true)

theorem leaf_sent (hT : Takes wr I) {d : δ} (hd : I d) (sep : Bool) (tok : Token) :
    SentTrue wr (spans c sep [tok]) d (writeLeafDev wr c (some (tok.call (tok.text c))) ⟨d, sep⟩) := by
  obtain ⟨ok, d', h1, h2, h3⟩ := unit_sent (c := c) hT hd sep
  simp only [writeLeafDev, Option.bind_some, spans]
  cases ok with
  | false => exact ⟨false, d', true, by simp [andThen, h1], by rw [sendCalls_append, h2]; rfl, by simp⟩
  | true =>
    obtain ⟨ok, d'', g1, g2⟩ := hT.keep (tok.call (tok.text c)) h3
    refine ⟨ok, d'', true, by simp [andThen, h1, g1], ?_, by simp⟩
    rw [sendCalls_append, h2]
    cases ok <;> simp [sendCalls, g1]

theorem deeper_sent (hT : Takes wr I) {d : δ} (hd : I d) (sep : Bool) {f : DSt δ → Option (Bool × DSt δ)}
    {ss : List Buffered.WOp} (hf : ∀ d, I d → Sent wr ss d (f ⟨d, false⟩)) :
    SentTrue wr ((if sep then [.write c.space] else []) ++ ss) d (andThen (unitDev wr c ⟨d, sep⟩) (deeperDev f)) := by
  obtain ⟨ok, d', h1, h2, h3⟩ := unit_sent (c := c) hT hd sep
  cases ok with
  | false => exact ⟨false, d', true, by simp [andThen, h1], by rw [sendCalls_append, h2]; rfl, by simp⟩
  | true =>
    obtain ⟨ok, d'', b, g1, g2⟩ := hf d' h3
    refine ⟨ok, d'', true, ?_, by rw [sendCalls_append, h2]; simpa using g2, fun _ => rfl⟩
    simp only [andThen, h1, Option.bind_some, if_true, deeperDev]
    change Option.map _ (f ⟨d', false⟩) = _
    rw [g1]
    rfl

theorem size_sent (hb : 2 ≤ c.num.base ∧ c.num.base ≤ 36) (hT : Takes wr I) {n : Nat} (hn : n < 2 ^ 63) {d : δ} (hd : I d)
    (sep : Bool) : SentTrue wr (spans c sep [.number 64 false n]) d (writeSizeDev wr c n ⟨d, sep⟩) := by
  rw [writeSizeDev, encode_some hb (size_range hn), Option.map_some, spans_sep (by simp)]
  refine deeper_sent hT hd sep fun d hd => ?_
  obtain ⟨ok, d', b, h1, h2, -⟩ := leaf_sent (c := c) hT hd false (.number 64 false n)
  exact ⟨ok, d', b, h1, h2⟩

theorem all_sent {α : Type} (hT : Takes wr I) {w : α → DSt δ → Option (Bool × DSt δ)} {tk : α → List Token} (xs : List α)
    (hne : ∀ x, tk x ≠ []) (h : ∀ x ∈ xs, ∀ d sep, I d → SentTrue wr (spans c sep (tk x)) d (w x ⟨d, sep⟩)) :
    ∀ {d : δ} (sep : Bool), I d → Sent wr (spans c sep (xs.flatMap tk)) d (writeAllDev w xs ⟨d, sep⟩) := by
  induction xs with
  | nil => intro d sep hd; exact ⟨true, d, sep, rfl, rfl⟩
  | cons x xs ih =>
    intro d sep hd
    rw [List.flatMap_cons, spans_append (hne x), writeAllDev]
    exact sent_then hT hd (h x (by simp) d sep hd) fun d hd => ih (fun y hy => h y (by simp [hy])) true hd

mutual

theorem write_sent (hb : 2 ≤ c.num.base ∧ c.num.base ≤ 36) (hT : Takes wr I) (t : Ty) (x : Val t) (hv : Valid t x)
    {d : δ} (hd : I d) (sep : Bool) : SentTrue wr (spans c sep (tokens t x)) d (writeDev wr c t x ⟨d, sep⟩) := by
  match t with
  | .int w s =>
    rw [Valid] at hv
    rw [writeDev, tokens, encode_some hb hv]
    exact leaf_sent hT hd sep _
  | .bool => rw [writeDev, tokens]; exact leaf_sent hT hd sep (.flag x)
  | .char => rw [writeDev, tokens]; exact leaf_sent hT hd sep (.char x)
  | .str => rw [writeDev, tokens]; exact leaf_sent hT hd sep (.word x)
  | .tuple .nil =>
    rw [writeDev, tokens, spans_sep (by simp)]
    refine deeper_sent hT hd sep fun d hd => ⟨true, d, false, rfl, ?_⟩
    simp [spans, sendCalls, Token.call, Token.text, hT.empty hd]
  | .tuple (.cons t ts) =>
    rw [writeDev, spans_sep (tokens_ne _ _)]
    exact deeper_sent hT hd sep fun d hd => writeTuple_sent hb hT (.cons t ts) x hv hd false
  | .array n t =>
    rw [Valid] at hv
    rw [writeDev, spans_sep (tokens_ne _ _)]
    refine deeper_sent hT hd sep fun d hd => ?_
    have := all_sent (c := c) (tk := tokens t) hT x (tokens_ne t) (fun y hy d sep hd => write_sent hb hT t y (hv.2 y hy) hd sep)
      false hd
    rw [tokens]
    split
    · rename_i hx
      have hx : (show List (Val t) from x) = [] := List.isEmpty_iff.mp hx
      obtain ⟨ok, d', b, h1, h2⟩ := this
      refine ⟨ok, d', b, h1, ?_⟩
      change sendCalls wr (spans c false (List.flatMap (tokens t) (show List (Val t) from x))) d = _ at h2
      rw [hx] at h2
      rw [← h2]
      simp [spans, sendCalls, Token.call, Token.text, hT.empty hd]
    · exact this
  | .vec t =>
    rw [Valid] at hv
    rw [writeDev, tokens, spans_sep (by simp)]
    refine deeper_sent hT hd sep fun d hd => ?_
    rw [← List.singleton_append, spans_append (by simp)]
    exact sent_then hT hd (size_sent hb hT hv.1 hd false) fun d hd =>
      all_sent hT x (tokens_ne t) (fun y hy d sep hd => write_sent hb hT t y (hv.2 y hy) hd sep) true hd
  | .seq t =>
    rw [Valid] at hv
    rw [writeDev, tokens, spans_sep (by simp)]
    refine deeper_sent hT hd sep fun d hd => ?_
    rw [← List.singleton_append, spans_append (by simp)]
    exact sent_then hT hd (size_sent hb hT hv.1 hd false) fun d hd =>
      all_sent hT x (tokens_ne t) (fun y hy d sep hd => write_sent hb hT t y (hv.2 y hy) hd sep) true hd

theorem writeTuple_sent (hb : 2 ≤ c.num.base ∧ c.num.base ≤ 36) (hT : Takes wr I) (ts : Tys) (x : Vals ts)
    (hv : ValidTuple ts x) {d : δ} (hd : I d) (sep : Bool) :
    Sent wr (spans c sep (tokensTuple ts x)) d (writeTupleDev wr c ts x ⟨d, sep⟩) := by
  match ts with
  | .nil => exact ⟨true, d, sep, by rw [writeTupleDev], rfl⟩
  | .cons t ts =>
    rw [ValidTuple] at hv
    rw [writeTupleDev, tokensTuple, spans_append (tokens_ne _ _)]
    exact sent_then hT hd (write_sent hb hT t x.1 hv.1 hd sep) fun d hd => writeTuple_sent hb hT ts x.2 hv.2 hd true

end

theorem call_bytes (tok : Token) : Buffered.written [tok.call (tok.text c)] = tok.text c := by
  cases tok <;> simp [Token.call, Buffered.written, Token.text]

theorem written_append (a b : List Buffered.WOp) : Buffered.written (a ++ b) = Buffered.written a ++ Buffered.written b := by
  induction a with
  | nil => rfl
  | cons op ops ih => cases op <;> simp [Buffered.written, ih]

theorem spans_written {sep : Bool} (toks : List Token) : Buffered.written (spans c sep toks) = body c sep toks := by
  induction toks generalizing sep with
  | nil => rfl
  | cons t ts ih =>
    rw [spans, written_append, ← List.singleton_append (l := spans c true ts), written_append, call_bytes, ih, body]
    cases sep <;> simp [spc, Buffered.written]

theorem spans_intersperse (toks : List Token) :
    spans c false toks = (List.zipWith Token.call toks (toks.map (Token.text c))).intersperse (.write c.space) := by
  induction toks with
  | nil => rfl
  | cons t ts ih =>
    cases ts with
    | nil => simp [spans]
    | cons u us =>
      rw [spans, spans_sep (by simp), ih]
      simp

theorem body_intersperse (toks : List Token) :
    body c false toks = ((toks.map (Token.text c)).intersperse c.space).flatten := by
  induction toks with
  | nil => rfl
  | cons t ts ih =>
    cases ts with
    | nil => simp [body, spc]
    | cons u us =>
      simp only [List.map_cons, List.intersperse_cons₂, List.flatten_cons] at ih ⊢
      rw [← ih]
      simp [body, spc]

theorem call_shown {tok : Token} {s : List Byte} (h : tok.Shows c s) :
    Buffered.written [tok.call s] = s ∧ tok.call s ≠ .flush := by
  cases tok with
  | char x => exact ⟨by simp only [Token.Shows] at h; simp [Token.call, Buffered.written, h], by simp [Token.call]⟩
  | _ => exact ⟨by simp [Token.call, Buffered.written], by simp [Token.call]⟩

theorem calls_written {toks : List Token} {pieces : List (List Byte)} (h : List.Forall₂ (Token.Shows c) toks pieces) :
    .flush ∉ (List.zipWith Token.call toks pieces).intersperse (.write c.space) ∧
      Buffered.written ((List.zipWith Token.call toks pieces).intersperse (.write c.space)) =
        (pieces.intersperse c.space).flatten := by
  induction h with
  | nil => exact ⟨by simp, rfl⟩
  | @cons t s ts ss h1 h2 ih =>
    obtain ⟨k1, k2⟩ := call_shown h1
    cases h2 with
    | nil => exact ⟨by simpa using k2.symm, by simpa using k1⟩
    | cons h3 h4 =>
      simp only [List.zipWith_cons_cons, List.intersperse_cons₂, List.flatten_cons] at ih ⊢
      refine ⟨?_, ?_⟩
      · rw [List.mem_cons, List.mem_cons]
        rintro (h | h | h)
        · exact k2 h.symm
        · cases h
        · exact ih.1 h
      · rw [← List.singleton_append, written_append, k1]
        simp only [Buffered.written, ih.2]

theorem no_flush {sep : Bool} (toks : List Token) : .flush ∉ spans c sep toks := by
  induction toks generalizing sep with
  | nil => simp [spans]
  | cons t ts ih =>
    have : t.call (t.text c) ≠ .flush := by cases t <;> simp [Token.call]
    cases sep <;> simp [spans, ih, this.symm]

/-! ### The devices -/

theorem buffered_takes : Takes bufferedPort (fun w => w.ptr < w.buf.length) where
  keep := by
    intro w s h
    refine ⟨true, _, rfl, ?_⟩
    cases s with
    | put x =>
      obtain ⟨h1, h2, -⟩ := Buffered.writer_put h x
      simp only [Buffered.Writer.step]
      rw [h1, h2]
      exact Nat.mod_lt _ (by omega)
    | write s =>
      obtain ⟨h1, h2, -⟩ := Buffered.writer_write h s
      simp only [Buffered.Writer.step]
      rw [h1]
      exact h2
    | flush =>
      simp only [Buffered.Writer.step, Buffered.Writer.flush, Buffered.Writer.overflow]
      omega
  empty := by
    intro w h
    simp only [bufferedPort, Buffered.Writer.step, Buffered.Writer.write, List.length_nil]
    rw [if_pos (by omega)]
    simp

theorem buffered_send (ss : List (List Byte)) (w : Buffered.Writer) :
    send bufferedSink ss w = some (true, (ss.map Buffered.WOp.write).foldl Buffered.Writer.step w) := by
  induction ss generalizing w with
  | nil => rfl
  | cons s ss ih => simp [send, bufferedSink, ih, Buffered.Writer.step]

theorem buffered_calls (ss : List Buffered.WOp) (w : Buffered.Writer) :
    sendCalls bufferedPort ss w = some (true, ss.foldl Buffered.Writer.step w) := by
  induction ss generalizing w with
  | nil => rfl
  | cons s ss ih => simp [sendCalls, bufferedPort, ih]

theorem written_spans (ss : List (List Byte)) : Buffered.written (ss.map Buffered.WOp.write) = ss.flatten := by
  induction ss with
  | nil => rfl
  | cons s ss ih => simp [Buffered.written, ih]

/-- A memory device with its pointer inside of the span. -/
def MemIn (m : Device.Mem) : Prop := ∃ n : Nat, m.pos = n ∧ n ≤ m.data.length ∧ m.data.length < 2 ^ 63

theorem mem_write {data : List Byte} {n : Nat} (hn : n ≤ data.length) (hl : data.length < 2 ^ 63) (s : List Byte) :
    memorySink ⟨data, n⟩ s = some (decide (s.length ≤ data.length - n),
      ⟨data.take n ++ s.take (data.length - n) ++ data.drop (n + s.length),
        ((n + min s.length (data.length - n) : Nat) : Int)⟩) := by
  have hr : Device.remaining data.length (n : Int) = data.length - n := by
    unfold Device.remaining
    rw [Int.emod_eq_of_lt (by omega) (by omega)]
    omega
  simp only [memorySink, Device.Mem.write, hr]
  rw [if_pos (by
    simp only [Device.inside, Bool.or_eq_true, decide_eq_true_eq, Bool.and_eq_true]
    right
    constructor <;> omega)]
  simp only [Option.map_some, Option.some.injEq, Prod.mk.injEq, Int.toNat_natCast]
  refine ⟨?_, ?_⟩
  · rw [Bool.eq_iff_iff]
    simp only [beq_iff_eq, decide_eq_true_eq]
    omega
  · congr 1
    congr 1
    · congr 1
      rw [Nat.min_comm]
      simp [List.take_eq_take_iff]
    · by_cases h : s.length ≤ data.length - n
      · rw [Nat.min_eq_left h]
      · rw [Nat.min_eq_right (by omega), List.drop_eq_nil_of_le (by omega), List.drop_eq_nil_of_le (by omega)]

theorem mem_put {data : List Byte} {n : Nat} (hn : n ≤ data.length) (hl : data.length < 2 ^ 63) (x : Byte) :
    memoryPort ⟨data, n⟩ (.put x) = memorySink ⟨data, n⟩ [x] := by
  rw [mem_write hn hl]
  simp only [memoryPort, Device.Mem.write1]
  by_cases h : n = data.length
  · subst h
    rw [if_pos (by omega)]
    simp
  · rw [if_neg (by omega), if_pos (by omega)]
    have hlt : n < data.length := by omega
    simp only [Option.map_some, BEq.rfl, Int.toNat_natCast, Option.some.injEq, Prod.mk.injEq, List.length_singleton]
    refine ⟨by simp; omega, ?_⟩
    congr 1
    · rw [List.take_of_length_le (l := [x]) (by simp; omega), List.set_eq_take_append_cons_drop, if_pos hlt]
      simp
    · omega

/-- The characters of a call. -/
def callBytes : Buffered.WOp → List Byte
  | .put x => [x]
  | .write s => s
  | .flush => []

theorem mem_call {data : List Byte} {n : Nat} (hn : n ≤ data.length) (hl : data.length < 2 ^ 63) (op : Buffered.WOp) :
    memoryPort ⟨data, n⟩ op = memorySink ⟨data, n⟩ (callBytes op) := by
  cases op with
  | put x => exact mem_put hn hl x
  | write s => rfl
  | flush => rw [callBytes, mem_write hn hl]; simp [memoryPort]

theorem memory_takes : Takes memoryPort MemIn where
  keep := by
    intro m s ⟨n, h1, h2, h3⟩
    obtain ⟨data, pos⟩ := m
    simp only at h1 h2 h3
    subst h1
    rw [mem_call h2 h3]
    refine ⟨_, _, mem_write h2 h3 _, _, rfl, ?_, ?_⟩ <;> simp <;> omega
  empty := by
    intro m ⟨n, h1, h2, h3⟩
    obtain ⟨data, pos⟩ := m
    simp only at h1 h2 h3
    subst h1
    rw [mem_call h2 h3, callBytes, mem_write h2 h3]
    simp

theorem memory_send (ss : List (List Byte)) {data : List Byte} {n : Nat} (hn : n ≤ data.length) (hl : data.length < 2 ^ 63) :
    send memorySink ss ⟨data, n⟩ = some (decide (ss.flatten.length ≤ data.length - n),
      ⟨data.take n ++ ss.flatten.take (data.length - n) ++ data.drop (n + ss.flatten.length),
        ((n + min ss.flatten.length (data.length - n) : Nat) : Int)⟩) := by
  induction ss generalizing data n with
  | nil => simp [send]
  | cons s ss ih =>
    rw [send, mem_write hn hl]
    simp only [Option.bind_some]
    by_cases h : s.length ≤ data.length - n
    · rw [if_pos (by simpa using h)]
      have hlen : (data.take n ++ s.take (data.length - n) ++ data.drop (n + s.length)).length = data.length := by
        simp; omega
      rw [Nat.min_eq_left h, ih (by rw [hlen]; omega) (by rw [hlen]; exact hl), hlen]
      simp only [List.flatten_cons, List.length_append, Option.some.injEq, Prod.mk.injEq, decide_eq_decide]
      refine ⟨by omega, ?_⟩
      have e1 : s.take (data.length - n) = s := List.take_of_length_le h
      rw [e1]
      congr 1
      · have l1 : (data.take n ++ s).length = n + s.length := by simp; omega
        rw [List.take_append_of_le_length (by rw [l1]), List.take_of_length_le (by rw [l1]),
          List.take_append, e1, List.drop_append, List.drop_eq_nil_of_le (by rw [l1]; omega), l1, List.drop_drop]
        simp only [List.nil_append, List.append_assoc]
        congr 3
        · congr 1; omega
        · congr 1; omega
      · congr 1; omega
    · rw [if_neg (by simpa using h)]
      simp only [List.flatten_cons, List.length_append, Option.some.injEq, Prod.mk.injEq]
      refine ⟨by simp; omega, ?_⟩
      congr 1
      · rw [List.take_append_of_le_length (by omega), List.drop_eq_nil_of_le (by omega), List.drop_eq_nil_of_le (by omega)]
      · congr 1; omega

theorem written_flatten (ops : List Buffered.WOp) : Buffered.written ops = (ops.map callBytes).flatten := by
  induction ops with
  | nil => rfl
  | cons op ops ih => cases op <;> simp [Buffered.written, callBytes, ih]

theorem memory_calls (ops : List Buffered.WOp) {m : Device.Mem} (hm : MemIn m) :
    sendCalls memoryPort ops m = send memorySink (ops.map callBytes) m := by
  induction ops generalizing m with
  | nil => rfl
  | cons op ops ih =>
    obtain ⟨ok, m', h1, h2⟩ := memory_takes.keep op hm
    have : memorySink m (callBytes op) = some (ok, m') := by
      obtain ⟨data, pos⟩ := m
      obtain ⟨n, k1, k2, k3⟩ := hm
      simp only at k1 k2 k3
      subst k1
      rw [← mem_call k2 k3, h1]
    simp only [sendCalls, List.map_cons, send, h1, this, Option.bind_some, ih h2]

theorem string_takes : Takes stringPort (fun _ => True) where
  keep := by intro d s _; cases s <;> exact ⟨_, _, rfl, trivial⟩
  empty := by intro d _; simp [stringPort, stringSink, Device.Str.write]

theorem string_calls (ops : List Buffered.WOp) (d : Device.Str) :
    sendCalls stringPort ops d = some (true, { d with s := d.s ++ Buffered.written ops }) := by
  induction ops generalizing d with
  | nil => simp [sendCalls, Buffered.written]
  | cons op ops ih =>
    cases op <;> simp [sendCalls, stringPort, stringSink, ih, Device.Str.write, Device.Str.write1, Buffered.written]

theorem string_send (ss : List (List Byte)) (d : Device.Str) :
    send stringSink ss d = some (true, { d with s := d.s ++ ss.flatten }) := by
  induction ss generalizing d with
  | nil => simp [send]
  | cons s ss ih => simp [send, stringSink, ih, Device.Str.write]

end Actl.TextTree
