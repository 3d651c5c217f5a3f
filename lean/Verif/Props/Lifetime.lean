import Verif.Spec.Lifetime
import Mathlib.Data.List.Induction

/-!
# C117: stored expressions
-/

namespace Actl.Lifetime

theorem run_append : ∀ (H : List Stmt) (s : State) (H' : List Stmt),
    run s (H ++ H') = (run s H).bind fun s' => run s' H'
  | [], _, _ => rfl
  | st :: H, s, H' => by
    rw [List.cons_append, run, run]
    cases step s st with
    | none => rfl
    | some s' => exact run_append H s' H'

theorem lastValue_append (o : Nat) : ∀ (H : List Stmt) (b : Base) (H' : List Stmt),
    lastValue o b (H ++ H') = lastValue o (lastValue o b H) H'
  | [], _, _ => rfl
  | .assign p v :: H, b, H' => by
    rw [List.cons_append, lastValue, lastValue, lastValue_append o H]
  | .create _ _ :: H, b, H' => by
    rw [List.cons_append, lastValue, lastValue, lastValue_append o H] <;> simp
  | .build _ _ _ :: H, b, H' => by
    rw [List.cons_append, lastValue, lastValue, lastValue_append o H] <;> simp
  | .destroy _ :: H, b, H' => by
    rw [List.cons_append, lastValue, lastValue, lastValue_append o H] <;> simp

theorem store_call {s : State} {op : Src} {args : List Src} {n : Node} (h : store s (.call op args) = some n) :
    ∃ op' args', n = .app op' args' := by
  rw [store] at h
  obtain ⟨x, -, h⟩ := Option.bind_eq_some_iff.1 h
  obtain ⟨y, -, rfl⟩ := Option.map_eq_some_iff.1 h
  exact ⟨x, y, rfl⟩

theorem Born.append {H : List Stmt} {o t : Nat} {st : Stmt} (h : Born H o t st) (H' : List Stmt) :
    Born (H ++ H') o t st := by
  have ht : t < H.length := (List.getElem?_eq_some_iff.1 h.1).1
  refine ⟨by rw [List.getElem?_append_left ht]; exact h.1, h.2.1, ?_⟩
  rw [List.take_append_of_le_length (Nat.le_of_lt ht)]
  exact h.2.2

theorem Born.lt {H : List Stmt} {o t : Nat} {st : Stmt} (h : Born H o t st) : t < H.length :=
  (List.getElem?_eq_some_iff.1 h.1).1

theorem Born.take {H : List Stmt} {o t n : Nat} {st : Stmt} (h : Born H o t st) (ht : t < n) :
    Born (H.take n) o t st := by
  refine ⟨by rw [List.getElem?_take_of_lt ht]; exact h.1, h.2.1, ?_⟩
  rw [List.take_take, Nat.min_eq_left (Nat.le_of_lt ht)]
  exact h.2.2

theorem Born.of_take {H : List Stmt} {o t n : Nat} {st : Stmt} (h : Born (H.take n) o t st) :
    Born H o t st ∧ t < n := by
  have ht := h.lt
  rw [List.length_take] at ht
  refine ⟨?_, by omega⟩
  have := h.append (H.drop n)
  rwa [List.take_append_drop] at this

/-- An object is created once. -/
theorem Born.unique {H : List Stmt} {o t t' : Nat} {st st' : Stmt} (h : Born H o t st) (h' : Born H o t' st') :
    t = t' ∧ st = st' := by
  have key : ∀ {t t' : Nat} {st st' : Stmt}, Born H o t st → Born H o t' st' → ¬ t < t' := by
    intro t t' st st' h h' hlt
    have h1 := h'.2.2
    have h2 : (H.take t').take (t + 1) = H.take t ++ [st] := by
      rw [List.take_take, Nat.min_eq_left (by omega), List.take_succ, h.1]
      rfl
    have h3 : (H.take t').countP Stmt.making = ((H.take t').take (t + 1)).countP Stmt.making +
        ((H.take t').drop (t + 1)).countP Stmt.making := by
      rw [← List.countP_append, List.take_append_drop]
    rw [h2, List.countP_append, h.2.2, h1] at h3
    have h4 : [st].countP Stmt.making = 1 := by simp [h.2.1]
    omega
  have : t = t' := by
    have h1 := key h h'
    have h2 := key h' h
    omega
  subst this
  exact ⟨rfl, Option.some.inj (h.1.symm.trans h'.1)⟩

/-- The object is cheap to copy. -/
def Stmt.isCheap : Stmt → Bool
  | .create c _ => c
  | .build c _ _ => c
  | _ => false

/-- What the content of an object is. -/
def Content (H : List Stmt) (o t : Nat) : Stmt → Node → Prop
  | .create _ b, n => n = .base (lastValue o b H)
  | .build _ op args, n => ∃ s, run [] (H.take t) = some s ∧ store s (.call op args) = some n
  | _, _ => False

/-- The state after a program. -/
structure Inv (H : List Stmt) (s : State) : Prop where
  length : s.length = H.countP Stmt.making
  born : ∀ o, o < s.length → ∃ t st, Born H o t st
  obj : ∀ o t st, Born H o t st → ∃ x, s[o]? = some x ∧ x.cheap = st.isCheap ∧ (x.alive = true ↔ Alive H o) ∧
    Content H o t st x.content
  known : ∀ o v, Stmt.assign o v ∈ H → o < s.length
  gone : ∀ o, Stmt.destroy o ∈ H → o < s.length

theorem born_snoc {H : List Stmt} {x st : Stmt} {o t : Nat} (h : Born (H ++ [x]) o t st) :
    Born H o t st ∨ t = H.length ∧ st = x ∧ o = H.countP Stmt.making := by
  have ht := h.lt
  rw [List.length_append, List.length_singleton] at ht
  by_cases hl : t < H.length
  · refine .inl ?_
    have := h.take hl
    rwa [List.take_append_of_le_length (Nat.le_refl _), List.take_length] at this
  · have : t = H.length := by omega
    subst this
    refine .inr ⟨rfl, ?_, ?_⟩
    · have := h.1
      rw [List.getElem?_concat_length] at this
      exact (Option.some.inj this).symm
    · have := h.2.2
      rw [List.take_append_of_le_length (Nat.le_refl _), List.take_length] at this
      exact this.symm

theorem born_last (H : List Stmt) {st : Stmt} (hm : st.making = true) :
    Born (H ++ [st]) (H.countP Stmt.making) H.length st :=
  ⟨List.getElem?_concat_length, hm, by rw [List.take_append_of_le_length (Nat.le_refl _), List.take_length]⟩

theorem content_snoc {H : List Stmt} {x st : Stmt} {o t : Nat} {n : Node} (ht : t < H.length)
    (hx : ∀ v, x ≠ .assign o v) (h : Content H o t st n) : Content (H ++ [x]) o t st n := by
  cases st with
  | create c b =>
    rw [Content] at h ⊢
    rw [lastValue_append, h]
    cases x with
    | assign p v =>
      rw [lastValue, if_neg (fun e => hx v (by rw [e])), lastValue]
    | create _ _ => rfl
    | build _ _ _ => rfl
    | destroy _ => rfl
  | build c op args =>
    rw [Content] at h ⊢
    rwa [List.take_append_of_le_length (Nat.le_of_lt ht)]
  | assign _ _ => exact h
  | destroy _ => exact h

theorem inv_make {H : List Stmt} {s : State} {st : Stmt} {n : Node} (h : Inv H s) (hm : st.making = true)
    (hrun : run [] H = some s)
    (hn : match st with | .create _ b => n = .base b | .build _ op args => store s (.call op args) = some n | _ => False) :
    Inv (H ++ [st]) (s ++ [⟨true, st.isCheap, n⟩]) where
  length := by simp [h.length, hm]
  born o ho := by
    rw [List.length_append, List.length_singleton] at ho
    by_cases hl : o < s.length
    · obtain ⟨t, st', hb⟩ := h.born o hl
      exact ⟨t, st', hb.append _⟩
    · have : o = H.countP Stmt.making := by rw [← h.length]; omega
      subst this
      exact ⟨_, _, born_last H hm⟩
  obj o t st' hb := by
    have hne : ∀ p v, st ≠ .assign p v := by rintro p v rfl; cases hm
    have hnd : ∀ p, st ≠ .destroy p := by rintro p rfl; cases hm
    rcases born_snoc hb with hb | ⟨rfl, rfl, rfl⟩
    · obtain ⟨x, h1, h2, h3, h4⟩ := h.obj o t st' hb
      refine ⟨x, ?_, h2, ?_, content_snoc hb.lt (hne o) h4⟩
      · rw [List.getElem?_append_left (List.getElem?_eq_some_iff.1 h1).1]
        exact h1
      · rw [h3, Alive, Alive, List.mem_append, List.mem_singleton]
        have := hnd o
        tauto
    · refine ⟨⟨true, st'.isCheap, n⟩, ?_, rfl, ?_, ?_⟩
      · rw [← h.length, List.getElem?_concat_length]
      · refine ⟨fun _ => ?_, fun _ => rfl⟩
        rw [Alive, List.mem_append, List.mem_singleton]
        rintro (hd | hd)
        · have := h.gone _ hd
          rw [h.length] at this
          omega
        · exact hnd _ hd.symm
      · cases st' with
        | create c b =>
          simp only at hn
          rw [Content, hn, lastValue_append]
          rw [lastValue, lastValue]
          · have : ∀ (K : List Stmt) (b : Base), (∀ v, Stmt.assign (H.countP Stmt.making) v ∉ K) →
                lastValue (H.countP Stmt.making) b K = b := by
              intro K
              induction K with
              | nil => intro b _; rfl
              | cons a K ih =>
                intro b hK
                have hK' : ∀ v, Stmt.assign (H.countP Stmt.making) v ∉ K :=
                  fun v hv => hK v (List.mem_cons_of_mem _ hv)
                cases a with
                | assign p v =>
                  rw [lastValue, if_neg (by rintro rfl; exact hK v List.mem_cons_self)]
                  exact ih b hK'
                | create _ _ => rw [lastValue]; exacts [ih b hK', by simp]
                | build _ _ _ => rw [lastValue]; exacts [ih b hK', by simp]
                | destroy _ => rw [lastValue]; exacts [ih b hK', by simp]
            rw [this H b]
            intro v hv
            have := h.known _ _ hv
            rw [h.length] at this
            omega
          · simp
        | build c op args =>
          simp only at hn
          refine ⟨s, ?_, hn⟩
          rw [List.take_append_of_le_length (Nat.le_refl _), List.take_length]
          exact hrun
        | assign _ _ => cases hm
        | destroy _ => cases hm
  known o v hv := by
    rw [List.mem_append, List.mem_singleton] at hv
    rcases hv with hv | rfl
    · have := h.known o v hv
      rw [List.length_append]
      omega
    · cases hm
  gone o hv := by
    rw [List.mem_append, List.mem_singleton] at hv
    rcases hv with hv | rfl
    · have := h.gone o hv
      rw [List.length_append]
      omega
    · cases hm

theorem inv_change {H : List Stmt} {s : State} {st : Stmt} {x y : Obj} {o : Nat} (h : Inv H s)
    (hx : s[o]? = some x) (hc : y.cheap = x.cheap)
    (hst : (∃ v w, st = .assign o v ∧ x.content = .base (.num w) ∧ y.content = .base (.num v) ∧ y.alive = x.alive ∧
        x.alive = true) ∨
      (st = .destroy o ∧ y.content = x.content ∧ y.alive = false)) :
    Inv (H ++ [st]) (s.set o y) := by
  have hm : st.making = false := by
    rcases hst with ⟨v, w, rfl, -⟩ | ⟨rfl, -⟩ <;> rfl
  have ho : o < s.length := (List.getElem?_eq_some_iff.1 hx).1
  refine ⟨by simp [h.length, hm], ?_, ?_, ?_, ?_⟩
  · intro p hp
    rw [List.length_set] at hp
    obtain ⟨t, st', hb⟩ := h.born p hp
    exact ⟨t, st', hb.append _⟩
  · intro p t st' hb
    rcases born_snoc hb with hb' | ⟨rfl, rfl, rfl⟩
    · obtain ⟨z, h1, h2, h3, h4⟩ := h.obj p t st' hb'
      by_cases hp : p = o
      · subst hp
        obtain rfl : z = x := Option.some.inj (h1.symm.trans hx)
        refine ⟨y, by rw [List.getElem?_set_self ho], hc.trans h2, ?_, ?_⟩
        · rcases hst with ⟨v, w, rfl, -, -, h5, h6⟩ | ⟨rfl, -, h5⟩
          · rw [h5, h3, Alive, Alive, List.mem_append, List.mem_singleton]
            simp
          · rw [h5, Alive, List.mem_append, List.mem_singleton]
            simp
        · rcases hst with ⟨v, w, rfl, h5, h6, -⟩ | ⟨rfl, h5, -⟩
          · cases st' with
            | create c b =>
              rw [Content, h6, lastValue_append, lastValue, if_pos rfl, lastValue]
            | build c op args =>
              rw [Content] at h4 ⊢
              obtain ⟨s', h7, h8⟩ := h4
              rw [h5] at h8
              obtain ⟨_, _, h9⟩ := store_call h8
              cases h9
            | assign _ _ => exact h4
            | destroy _ => exact h4
          · rw [h5]
            exact content_snoc hb'.lt (by simp) h4
      · refine ⟨z, ?_, h2, ?_, ?_⟩
        · rw [List.getElem?_set_ne (Ne.symm hp)]
          exact h1
        · rw [h3, Alive, Alive, List.mem_append, List.mem_singleton]
          rcases hst with ⟨v, w, rfl, -⟩ | ⟨rfl, -⟩
          · simp
          · simp [hp]
        · refine content_snoc hb'.lt ?_ h4
          rcases hst with ⟨v, w, rfl, -⟩ | ⟨rfl, -⟩
          · intro v' e
            cases e
            exact hp rfl
          · simp
    · rw [hb.2.1] at hm
      cases hm
  · intro p v hv
    rw [List.length_set]
    rw [List.mem_append, List.mem_singleton] at hv
    rcases hv with hv | rfl
    · exact h.known p v hv
    · rcases hst with ⟨v', w, e, -⟩ | ⟨e, -⟩
      · cases e
        exact ho
      · cases e
  · intro p hv
    rw [List.length_set]
    rw [List.mem_append, List.mem_singleton] at hv
    rcases hv with hv | rfl
    · exact h.gone p hv
    · rcases hst with ⟨v', w, e, -⟩ | ⟨e, -⟩
      · cases e
      · cases e
        exact ho

theorem inv_nil : Inv [] [] where
  length := rfl
  born o ho := by simp at ho
  obj o t st hb := by simp [Born] at hb
  known o v hv := by simp at hv
  gone o hv := by simp at hv

theorem inv_step {H : List Stmt} {s s' : State} {st : Stmt} (hrun : run [] H = some s) (h : Inv H s)
    (hs : step s st = some s') : Inv (H ++ [st]) s' := by
  cases st with
  | create c b =>
    cases hs
    exact inv_make (st := .create c b) h rfl hrun rfl
  | build c op args =>
    rw [step] at hs
    obtain ⟨n, hn, rfl⟩ := Option.map_eq_some_iff.1 hs
    exact inv_make (st := .build c op args) h rfl hrun hn
  | assign o v =>
    rw [step] at hs
    split at hs
    next c w hx =>
      cases hs
      exact inv_change h hx rfl (.inl ⟨v, w, rfl, rfl, rfl, rfl, rfl⟩)
    next => cases hs
  | destroy o =>
    rw [step] at hs
    split at hs
    next c n hx =>
      cases hs
      exact inv_change h hx rfl (.inr ⟨rfl, rfl, rfl⟩)
    next => cases hs

theorem inv_run {H : List Stmt} : ∀ {s : State}, run [] H = some s → Inv H s := by
  induction H using List.reverseRecOn with
  | nil =>
    intro s h
    cases h
    exact inv_nil
  | append_singleton H st ih =>
    intro s h
    rw [run_append] at h
    obtain ⟨s', h1, h2⟩ := Option.bind_eq_some_iff.1 h
    rw [run] at h2
    obtain ⟨s'', h3, h4⟩ := Option.bind_eq_some_iff.1 h2
    cases h4
    exact inv_step h1 (ih h1) h3

theorem run_take {H : List Stmt} {s : State} (h : run [] H = some s) (t : Nat) :
    ∃ s', run [] (H.take t) = some s' := by
  rw [← List.take_append_drop t H, run_append] at h
  obtain ⟨s', h1, -⟩ := Option.bind_eq_some_iff.1 h
  exact ⟨s', h1⟩

theorem eval_app (s : State) (k : Nat) (op : Node) (args : List Node) (b : Base) :
    eval s k (.app op args) = some b ↔
      ∃ f vs, eval s k op = some (.fn f) ∧ evalAll s k args = some vs ∧ b = .num (f vs) := by
  rw [eval]
  constructor
  · intro h
    split at h
    next f hf =>
      obtain ⟨vs, h1, rfl⟩ := Option.map_eq_some_iff.1 h
      exact ⟨f, vs, hf, h1, rfl⟩
    next => cases h
  · rintro ⟨f, vs, h1, h2, rfl⟩
    rw [h1, h2]
    rfl

theorem evalAll_iff (s : State) (k : Nat) : ∀ (ns : List Node) (vs : List Int),
    evalAll s k ns = some vs ↔
      ns.length = vs.length ∧ ∀ (i : Nat) n v, ns[i]? = some n → vs[i]? = some v → eval s k n = some (.num v)
  | [], vs => by
    rw [evalAll]
    cases vs <;> simp
  | n :: ns, vs => by
    rw [evalAll]
    constructor
    · intro h
      split at h
      next v hv =>
        obtain ⟨vs', h1, rfl⟩ := Option.map_eq_some_iff.1 h
        obtain ⟨h2, h3⟩ := (evalAll_iff s k ns vs').1 h1
        refine ⟨by simp [h2], fun i m w hm hw => ?_⟩
        cases i with
        | zero =>
          cases hm
          cases hw
          exact hv
        | succ i => exact h3 i m w hm hw
      next => cases h
    · rintro ⟨h1, h2⟩
      cases vs with
      | nil => cases h1
      | cons v vs =>
        rw [h2 0 n v rfl rfl]
        simp only
        rw [(evalAll_iff s k ns vs).2 ⟨by simpa using h1, fun i m w hm hw => h2 (i + 1) m w hm hw⟩]
        rfl

theorem storeAll_iff (s : State) : ∀ (as : List Src) (ns : List Node), store.storeAll s as = some ns →
    as.length = ns.length ∧ ∀ (i : Nat) a n, as[i]? = some a → ns[i]? = some n → store s a = some n
  | [], ns, h => by
    cases h
    simp
  | a :: as, ns, h => by
    rw [store.storeAll] at h
    obtain ⟨n, h1, h⟩ := Option.bind_eq_some_iff.1 h
    obtain ⟨ns', h2, rfl⟩ := Option.map_eq_some_iff.1 h
    obtain ⟨h3, h4⟩ := storeAll_iff s as ns' h2
    refine ⟨by simp [h3], fun i b m hb hm => ?_⟩
    cases i with
    | zero =>
      cases hb
      cases hm
      exact h1
    | succ i => exact h4 i b m hb hm

/-- The value of what was stored at time `t`. -/
theorem eval_store {H : List Stmt} {s : State} (hrun : run [] H = some s) :
    ∀ (t : Nat) (src : Src) (st : State) (n : Node) (k : Nat) (b : Base), t ≤ H.length →
      run [] (H.take t) = some st → store st src = some n → st.length ≤ k →
      (eval s k n = some b ↔ Means H t src b)
  | t, .rval b', st, n, k, b, _, _, hn, _ => by
    cases hn
    rw [eval]
    constructor
    · intro h
      cases h
      exact .rval
    · intro h
      cases h
      rfl
  | t, .call op args, st, n, k, b, ht, hst, hn, hk => by
    rw [store] at hn
    obtain ⟨op', h1, hn⟩ := Option.bind_eq_some_iff.1 hn
    obtain ⟨args', h2, rfl⟩ := Option.map_eq_some_iff.1 hn
    obtain ⟨h3, h4⟩ := storeAll_iff st args args' h2
    rw [eval_app]
    constructor
    · rintro ⟨f, vs, h5, h6, rfl⟩
      obtain ⟨h7, h8⟩ := (evalAll_iff s k args' vs).1 h6
      refine .call ((eval_store hrun t op st op' k _ ht hst h1 hk).1 h5) (h3.trans h7) fun i a v ha hv => ?_
      have hi : i < args'.length := by rw [← h3]; exact (List.getElem?_eq_some_iff.1 ha).1
      have hi' : args'[i]? = some args'[i] := List.getElem?_eq_getElem hi
      have hmem := List.mem_of_getElem? ha
      exact (eval_store hrun t a st _ k _ ht hst (h4 i a _ ha hi') hk).1 (h8 i _ v hi' hv)
    · intro h
      cases h with
      | @call _ _ _ f vs h5 h6 h7 =>
      refine ⟨f, vs, (eval_store hrun t op st op' k _ ht hst h1 hk).2 h5, ?_, rfl⟩
      rw [evalAll_iff]
      refine ⟨h3.symm.trans h6, fun i m v hm hv => ?_⟩
      have hi : i < args.length := by rw [h3]; exact (List.getElem?_eq_some_iff.1 hm).1
      have hi' : args[i]? = some args[i] := List.getElem?_eq_getElem hi
      have hmem := List.mem_of_getElem? hi'
      exact (eval_store hrun t args[i] st m k _ ht hst (h4 i _ m hi' hm) hk).2 (h7 i _ v hi' hv)
  | t, .lval o, st, n, k, b, ht, hst, hn, hk => by
    have hI := inv_run hst
    have hJ := inv_run hrun
    rw [store] at hn
    split at hn
    next x hx =>
      split at hn
      next hal =>
        have ho : o < st.length := (List.getElem?_eq_some_iff.1 hx).1
        obtain ⟨t', stm, hb⟩ := hI.born o ho
        obtain ⟨x', h1, h2, h3, h4⟩ := hI.obj o t' stm hb
        obtain rfl : x = x' := Option.some.inj (hx.symm.trans h1)
        obtain ⟨hb', hlt⟩ := hb.of_take
        obtain ⟨y, g1, g2, g3, g4⟩ := hJ.obj o t' stm hb'
        have hlen : ∀ {s' : State}, run [] (H.take t') = some s' → s'.length = o := by
          intro s' hs'
          rw [(inv_run hs').length]
          exact hb'.2.2
        cases hn
        cases stm with
        | assign _ _ => exact h4.elim
        | destroy _ => exact h4.elim
        | create c b0 =>
          rw [Content] at h4 g4
          rw [h2, Stmt.isCheap]
          cases c with
          | true =>
            rw [if_pos rfl, h4, eval]
            constructor
            · intro h
              cases h
              exact .cheapBase hb' hlt
            · intro h
              cases h with
              | cheapBase hb2 _ =>
                cases (hb'.unique hb2).2
                rfl
              | costlyBase hb2 _ => cases (hb'.unique hb2).2
              | cheapExpr hb2 _ => cases (hb'.unique hb2).2
              | costlyExpr hb2 _ => cases (hb'.unique hb2).2
          | false =>
            rw [if_neg (by simp), eval, dif_pos (Nat.lt_of_lt_of_le ho hk), g1]
            simp only
            constructor
            · intro h
              split at h
              next hal' =>
                rw [g4, eval] at h
                cases h
                exact .costlyBase hb' hlt (g3.1 hal')
              next => cases h
            · intro h
              cases h with
              | cheapBase hb2 _ => cases (hb'.unique hb2).2
              | costlyBase hb2 _ hal' =>
                cases (hb'.unique hb2).2
                rw [if_pos (g3.2 hal'), g4, eval]
              | cheapExpr hb2 _ => cases (hb'.unique hb2).2
              | costlyExpr hb2 _ => cases (hb'.unique hb2).2
        | build c op args =>
          rw [Content] at h4 g4
          obtain ⟨s1, h5, h6⟩ := h4
          rw [List.take_take, Nat.min_eq_left (Nat.le_of_lt hlt)] at h5
          obtain ⟨s2, g5, g6⟩ := g4
          obtain rfl : s1 = s2 := Option.some.inj (h5.symm.trans g5)
          obtain hxy : x.content = y.content := Option.some.inj (h6.symm.trans g6)
          rw [h2, Stmt.isCheap]
          cases c with
          | true =>
            rw [if_pos rfl, eval_store hrun t' (.call op args) s1 _ k b (Nat.le_of_lt (Nat.lt_of_lt_of_le hlt ht)) h5 h6
              (by rw [hlen h5]; omega)]
            constructor
            · exact fun h => .cheapExpr hb' hlt h
            · intro h
              cases h with
              | cheapBase hb2 _ => cases (hb'.unique hb2).2
              | costlyBase hb2 _ => cases (hb'.unique hb2).2
              | cheapExpr hb2 _ h =>
                obtain ⟨rfl, e⟩ := hb'.unique hb2
                cases e
                exact h
              | costlyExpr hb2 _ => cases (hb'.unique hb2).2
          | false =>
            rw [if_neg (by simp), eval, dif_pos (Nat.lt_of_lt_of_le ho hk), g1]
            simp only
            have key := eval_store hrun t' (.call op args) s1 y.content o b (Nat.le_of_lt (Nat.lt_of_lt_of_le hlt ht)) h5
              (by rw [← hxy]; exact h6) (Nat.le_of_eq (hlen h5))
            constructor
            · intro h
              split at h
              next hal' => exact .costlyExpr hb' hlt (g3.1 hal') (key.1 h)
              next => cases h
            · intro h
              cases h with
              | cheapBase hb2 _ => cases (hb'.unique hb2).2
              | costlyBase hb2 _ => cases (hb'.unique hb2).2
              | cheapExpr hb2 _ => cases (hb'.unique hb2).2
              | costlyExpr hb2 _ hal' h =>
                obtain ⟨rfl, e⟩ := hb'.unique hb2
                cases e
                rw [if_pos (g3.2 hal')]
                exact key.2 h
      next => cases hn
    next => cases hn
termination_by t src => (t, sizeOf src)
decreasing_by
  · exact Prod.Lex.right _ (by simp only [Src.call.sizeOf_spec]; omega)
  · exact Prod.Lex.right _ (by have := List.sizeOf_lt_of_mem hmem; simp only [Src.call.sizeOf_spec]; omega)
  · exact Prod.Lex.right _ (by simp only [Src.call.sizeOf_spec]; omega)
  · exact Prod.Lex.right _ (by have := List.sizeOf_lt_of_mem hmem; simp only [Src.call.sizeOf_spec]; omega)
  · exact Prod.Lex.left _ _ hlt
  · exact Prod.Lex.left _ _ hlt

/-- C117. What a named expression evaluates to: it has to be there, and it means what the specification says: cheap
arguments as of its creation, others as of now. -/
theorem eval_named {H : List Stmt} {s : State} (hrun : run [] H = some s) {o t : Nat} {c : Bool} {op : Src}
    {args : List Src} (hb : Born H o t (.build c op args)) (b : Base) :
    evalNamed s o = some b ↔ Alive H o ∧ Means H t (.call op args) b := by
  obtain ⟨x, h1, -, h3, st, h4, h5⟩ := (inv_run hrun).obj o t _ hb
  have hlen : st.length = o := by
    rw [(inv_run h4).length]
    exact hb.2.2
  have key := eval_store hrun t (.call op args) st x.content o b (Nat.le_of_lt hb.lt) h4 h5 (Nat.le_of_eq hlen)
  rw [evalNamed, h1]
  simp only
  constructor
  · intro h
    split at h
    next hal => exact ⟨h3.1 hal, key.1 h⟩
    next => cases h
  · rintro ⟨h6, h7⟩
    rw [if_pos (h3.2 h6)]
    exact key.2 h7

/-- A value exists only if everything referred to is there. -/
theorem means_alive {H : List Stmt} {t o : Nat} {src : Src} (h : Refers H t src o) :
    ∀ {b : Base}, Means H t src b → Alive H o := by
  induction h with
  | base hb _ =>
    intro b hm
    cases hm with
    | cheapBase hb2 _ => cases (hb.unique hb2).2
    | costlyBase hb2 _ h => exact h
    | cheapExpr hb2 _ => cases (hb.unique hb2).2
    | costlyExpr hb2 _ => cases (hb.unique hb2).2
  | expr hb _ =>
    intro b hm
    cases hm with
    | cheapBase hb2 _ => cases (hb.unique hb2).2
    | costlyBase hb2 _ => cases (hb.unique hb2).2
    | cheapExpr hb2 _ => cases (hb.unique hb2).2
    | costlyExpr hb2 _ h => exact h
  | through hb _ _ ih =>
    intro b hm
    cases hm with
    | cheapBase hb2 _ => cases (hb.unique hb2).2
    | costlyBase hb2 _ => cases (hb.unique hb2).2
    | cheapExpr hb2 _ h =>
      obtain ⟨rfl, e⟩ := hb.unique hb2
      cases e
      exact ih h
    | costlyExpr hb2 _ _ h =>
      obtain ⟨rfl, e⟩ := hb.unique hb2
      cases e
      exact ih h
  | op _ ih =>
    intro b hm
    cases hm with
    | call h _ _ => exact ih h
  | @arg t o op a args ha _ ih =>
    intro b hm
    cases hm with
    | @call _ _ _ f vs _ h1 h2 =>
      obtain ⟨i, hi, rfl⟩ := List.getElem_of_mem ha
      exact ih (h2 i _ vs[i] (List.getElem?_eq_getElem hi) (List.getElem?_eq_getElem (by omega)))

/-- Assignments do not change what is a number. -/
theorem lastValue_isNum {H : List Stmt} : ∀ {s : State}, run [] H = some s → ∀ {o t : Nat} {c : Bool} {b : Base},
    Born H o t (.create c b) → (lastValue o b H).isNum = b.isNum := by
  induction H using List.reverseRecOn with
  | nil =>
    intro s _ o t c b hb
    simp [Born] at hb
  | append_singleton H st ih =>
    intro s hrun o t c b hb
    have hrun' := hrun
    rw [run_append] at hrun
    obtain ⟨s', h1, h2⟩ := Option.bind_eq_some_iff.1 hrun
    rw [run] at h2
    obtain ⟨s'', h3, h4⟩ := Option.bind_eq_some_iff.1 h2
    rcases born_snoc hb with hb' | ⟨rfl, rfl, rfl⟩
    · have ih' := ih h1 hb'
      rw [lastValue_append]
      cases st with
      | create _ _ => exact ih'
      | build _ _ _ => exact ih'
      | destroy _ => exact ih'
      | assign p v =>
        rw [lastValue]
        by_cases hp : p = o
        · subst hp
          rw [if_pos rfl, lastValue]
          obtain ⟨x, g1, -, -, g4⟩ := (inv_run h1).obj p t _ hb'
          rw [step, g1] at h3
          split at h3
          next c' w hx =>
            cases hx
            rw [Content] at g4
            cases hl : lastValue p b H with
            | num u =>
              rw [hl] at ih'
              rw [← ih']
              rfl
            | fn f =>
              rw [hl] at g4
              cases g4
          next => cases h3
        · rw [if_neg hp]
          exact ih'
    · have hI := inv_run hrun'
      obtain ⟨x, g1, -, -, g4⟩ := hI.obj _ _ _ hb
      rw [step] at h3
      cases h3
      cases h4
      rw [Content] at g4
      rw [← (inv_run h1).length, List.getElem?_concat_length] at g1
      cases g1
      injection g4 with e
      rw [← e]

/-- If everything referred to is there, there is a value. -/
theorem means_defined {H : List Stmt} {s : State} (hrun : run [] H = some s) {t : Nat} {src : Src} {ty : Bool}
    (h : HasType H t src ty) : (∀ o, Refers H t src o → Alive H o) → ∃ b, Means H t src b ∧ b.isNum = ty := by
  induction h with
  | rval => exact fun _ => ⟨_, .rval, rfl⟩
  | @base t t' o c b hb hlt =>
    intro hr
    cases c with
    | true =>
      obtain ⟨s', hs'⟩ := run_take hrun t
      exact ⟨_, .cheapBase hb hlt, lastValue_isNum hs' (hb.take hlt)⟩
    | false => exact ⟨_, .costlyBase hb hlt (hr o (.base hb hlt)), lastValue_isNum hrun hb⟩
  | @expr t t' o c ty op args hb hlt _ ih =>
    intro hr
    obtain ⟨b, h1, h2⟩ := ih fun p hp => hr p (.through hb hlt hp)
    cases c with
    | true => exact ⟨b, .cheapExpr hb hlt h1, h2⟩
    | false => exact ⟨b, .costlyExpr hb hlt (hr o (.expr hb hlt)) h1, h2⟩
  | @call t op args _ _ ih1 ih2 =>
    intro hr
    obtain ⟨b, h1, h2⟩ := ih1 fun p hp => hr p (.op hp)
    have : ∀ as : List Src, (∀ a ∈ as, a ∈ args) → ∃ vs : List Int, as.length = vs.length ∧
        ∀ (i : Nat) a v, as[i]? = some a → vs[i]? = some v → Means H t a (.num v) := by
      intro as
      induction as with
      | nil => exact fun _ => ⟨[], rfl, by simp⟩
      | cons a as ih =>
        intro has
        obtain ⟨vs, h3, h4⟩ := ih fun x hx => has x (List.mem_cons_of_mem _ hx)
        have ha := has a List.mem_cons_self
        obtain ⟨b', h5, h6⟩ := ih2 a ha fun p hp => hr p (.arg ha hp)
        cases b' with
        | fn f => cases h6
        | num v =>
          refine ⟨v :: vs, by simp [h3], fun i x w hx hw => ?_⟩
          cases i with
          | zero =>
            cases hx
            cases hw
            exact h5
          | succ i => exact h4 i x w hx hw
    obtain ⟨vs, h3, h4⟩ := this args fun _ h => h
    cases b with
    | num v => cases h2
    | fn f => exact ⟨_, .call h1 h3 h4, rfl⟩

/-- C117. Evaluating a well-typed expression with a name is defined exactly when it is there itself and every object
it refers to, directly or through other expressions, is there. -/
theorem eval_defined_iff {H : List Stmt} {s : State} (hrun : run [] H = some s) {o t : Nat} {c : Bool} {op : Src}
    {args : List Src} (hb : Born H o t (.build c op args)) (hty : HasType H t (.call op args) true) :
    (∃ b, evalNamed s o = some b) ↔ Alive H o ∧ ∀ p, Refers H t (.call op args) p → Alive H p := by
  constructor
  · rintro ⟨b, h⟩
    obtain ⟨h1, h2⟩ := (eval_named hrun hb b).1 h
    exact ⟨h1, fun p hp => means_alive hp h2⟩
  · rintro ⟨h1, h2⟩
    obtain ⟨b, h3, -⟩ := means_defined hrun hty h2
    exact ⟨b, (eval_named hrun hb b).2 ⟨h1, h3⟩⟩

/-- C117. After the end of the lifetime of anything it refers to, for example of a local variable of the function which
returned it, an expression must not be evaluated. -/
theorem eval_dangling_ub {H : List Stmt} {s : State} (hrun : run [] H = some s) {o t p : Nat} {c : Bool} {op : Src}
    {args : List Src} (hb : Born H o t (.build c op args)) (hp : Refers H t (.call op args) p)
    (hd : Stmt.destroy p ∈ H) : evalNamed s o = none := by
  cases h : evalNamed s o with
  | none => rfl
  | some b => exact absurd hd (means_alive hp ((eval_named hrun hb b).1 h).2)

theorem means_append {H H' : List Stmt} {t : Nat} {src : Src} {b : Base} (h : Means H t src b) (ht : t ≤ H.length)
    (hr : ∀ p, ¬ Refers H t src p) : Means (H ++ H') t src b := by
  induction h with
  | rval => exact .rval
  | @cheapBase t t' o b hb hlt =>
    have := Means.cheapBase (hb.append H') hlt
    rwa [List.take_append_of_le_length ht] at this
  | @costlyBase t t' o b hb hlt _ => exact absurd (.base hb hlt) (hr o)
  | cheapExpr hb hlt _ ih =>
    exact .cheapExpr (hb.append H') hlt (ih (Nat.le_of_lt hb.lt) fun p hp => hr p (.through hb hlt hp))
  | @costlyExpr t t' o op args b hb hlt _ _ _ => exact absurd (.expr hb hlt) (hr o)
  | call _ h1 _ ih1 ih2 =>
    refine .call (ih1 ht fun p hp => hr p (.op hp)) h1 fun i a v ha hv => ?_
    exact ih2 i a v ha hv ht fun p hp => hr p (.arg (List.mem_of_getElem? ha) hp)

/-- C117. An expression all arguments of which were temporaries or cheap does not depend on anything that happens later:
assignments to the arguments and the ends of their lifetimes. -/
theorem eval_snapshot {H H' : List Stmt} {s s' : State} (hrun : run [] H = some s) (hrun' : run [] (H ++ H') = some s')
    {o t : Nat} {c : Bool} {op : Src} {args : List Src} (hb : Born H o t (.build c op args))
    (hr : ∀ p, ¬ Refers H t (.call op args) p) (hal : Alive (H ++ H') o) {b : Base} (h : evalNamed s o = some b) :
    evalNamed s' o = some b :=
  (eval_named hrun' (hb.append H') b).2
    ⟨hal, means_append ((eval_named hrun hb b).1 h).2 (Nat.le_of_lt hb.lt) hr⟩

/-- The value now of what is written, whatever is cheap. -/
inductive Now (H : List Stmt) : Src → Base → Prop
  | rval {b : Base} : Now H (.rval b) b
  | base {t o : Nat} {c : Bool} {b : Base} : Born H o t (.create c b) → Now H (.lval o) (lastValue o b H)
  | expr {t o : Nat} {c : Bool} {op : Src} {args : List Src} {b : Base} : Born H o t (.build c op args) →
      Means H t (.call op args) b → Now H (.lval o) b
  | call {op : Src} {args : List Src} {f : List Int → Int} {vs : List Int} : Now H op (.fn f) →
      args.length = vs.length →
      (∀ (i : Nat) a v, args[i]? = some a → vs[i]? = some v → Now H a (.num v)) → Now H (.call op args) (.num (f vs))

theorem store_lval {s : State} {o : Nat} {n : Node} (h : store s (.lval o) = some n) :
    ∃ x, s[o]? = some x ∧ x.alive = true := by
  rw [store] at h
  split at h
  next x hx =>
    split at h
    next hal => exact ⟨x, hx, hal⟩
    next => cases h
  next => cases h

theorem alive_of_store {H : List Stmt} {s : State} (hrun : run [] H = some s) {o t : Nat} {st : Stmt}
    (hb : Born H o t st) {n : Node} (h : store s (.lval o) = some n) : Alive H o := by
  obtain ⟨x, h1, h2⟩ := store_lval h
  obtain ⟨y, g1, -, g3, -⟩ := (inv_run hrun).obj o t st hb
  obtain rfl : x = y := Option.some.inj (h1.symm.trans g1)
  exact g3.1 h2

theorem means_of_now {H : List Stmt} {s : State} (hrun : run [] H = some s) {src : Src} {b : Base}
    (h : Now H src b) : ∀ {n : Node}, store s src = some n → Means H H.length src b := by
  induction h with
  | rval => exact fun _ => .rval
  | @base t o c b hb =>
    intro n hn
    cases c with
    | true =>
      have := Means.cheapBase hb hb.lt
      rwa [List.take_length] at this
    | false => exact .costlyBase hb hb.lt (alive_of_store hrun hb hn)
  | @expr t o c op args b hb h =>
    intro n hn
    cases c with
    | true => exact .cheapExpr hb hb.lt h
    | false => exact .costlyExpr hb hb.lt (alive_of_store hrun hb hn) h
  | call _ h1 _ ih1 ih2 =>
    intro n hn
    rw [store] at hn
    obtain ⟨op', h2, hn⟩ := Option.bind_eq_some_iff.1 hn
    obtain ⟨args', h3, rfl⟩ := Option.map_eq_some_iff.1 hn
    obtain ⟨h4, h5⟩ := storeAll_iff s _ args' h3
    refine .call (ih1 h2) h1 fun i a v ha hv => ?_
    have hi : i < args'.length := by rw [← h4]; exact (List.getElem?_eq_some_iff.1 ha).1
    exact ih2 i a v ha hv (h5 i a _ ha (List.getElem?_eq_getElem hi))

theorem now_of_means {H : List Stmt} {t : Nat} {src : Src} {b : Base} (h : Means H t src b) (ht : t = H.length) :
    Now H src b := by
  induction h with
  | rval => exact .rval
  | cheapBase hb hlt =>
    subst ht
    rw [List.take_length]
    exact .base hb
  | costlyBase hb hlt _ => exact .base hb
  | cheapExpr hb _ h _ => exact .expr hb h
  | costlyExpr hb _ _ h _ => exact .expr hb h
  | call _ h1 _ ih1 ih2 => exact .call (ih1 ht) h1 fun i a v ha hv => ih2 i a v ha hv ht

theorem alive_build {H : List Stmt} {c : Bool} {op : Src} {args : List Src} {o : Nat} :
    Alive (H ++ [.build c op args]) o ↔ Alive H o := by
  simp [Alive]

theorem lastValue_build {H : List Stmt} {c : Bool} {op : Src} {args : List Src} (o : Nat) (b : Base) :
    lastValue o b (H ++ [.build c op args]) = lastValue o b H := by
  rw [lastValue_append]
  rfl

theorem born_build {H : List Stmt} {st : Stmt} {o t t' : Nat} {x : Stmt} (hb : Born (H ++ [x]) o t' st)
    (hlt : t' < t) (ht : t ≤ H.length) : Born H o t' st := by
  rcases born_snoc hb with h | ⟨rfl, -⟩
  · exact h
  · omega

/-- Creating an expression changes no value. -/
theorem means_build_iff {H : List Stmt} {c : Bool} {op : Src} {args : List Src} {src : Src} {b : Base} :
    Means (H ++ [.build c op args]) H.length src b ↔ Means H H.length src b := by
  constructor
  · suffices ∀ {t : Nat}, Means (H ++ [.build c op args]) t src b → t ≤ H.length → Means H t src b from
      fun h => this h (Nat.le_refl _)
    intro t h
    induction h with
    | rval => exact fun _ => .rval
    | cheapBase hb hlt =>
      intro ht
      rw [List.take_append_of_le_length ht]
      exact .cheapBase (born_build hb hlt ht) hlt
    | costlyBase hb hlt hal =>
      intro ht
      rw [lastValue_build]
      exact .costlyBase (born_build hb hlt ht) hlt (alive_build.1 hal)
    | cheapExpr hb hlt _ ih =>
      intro ht
      exact .cheapExpr (born_build hb hlt ht) hlt (ih (by omega))
    | costlyExpr hb hlt hal _ ih =>
      intro ht
      exact .costlyExpr (born_build hb hlt ht) hlt (alive_build.1 hal) (ih (by omega))
    | call _ h1 _ ih1 ih2 =>
      intro ht
      exact .call (ih1 ht) h1 fun i a v ha hv => ih2 i a v ha hv ht
  · suffices ∀ {t : Nat}, Means H t src b → t ≤ H.length → Means (H ++ [.build c op args]) t src b from
      fun h => this h (Nat.le_refl _)
    intro t h
    induction h with
    | rval => exact fun _ => .rval
    | cheapBase hb hlt =>
      intro ht
      rw [← List.take_append_of_le_length (l₂ := [Stmt.build c op args]) ht]
      exact .cheapBase (hb.append _) hlt
    | costlyBase hb hlt hal =>
      intro ht
      rw [← lastValue_build (c := c) (op := op) (args := args)]
      exact .costlyBase (hb.append _) hlt (alive_build.2 hal)
    | cheapExpr hb hlt _ ih =>
      intro ht
      exact .cheapExpr (hb.append _) hlt (ih (by omega))
    | costlyExpr hb hlt hal _ ih =>
      intro ht
      exact .costlyExpr (hb.append _) hlt (alive_build.2 hal) (ih (by omega))
    | call _ h1 _ ih1 ih2 =>
      intro ht
      exact .call (ih1 ht) h1 fun i a v ha hv => ih2 i a v ha hv ht

/-- C117. An expression evaluated in the place where it is written has the value of what is written, whatever copies are
cheap: temporaries are kept, and nothing has been destroyed. -/
theorem eval_immediate {H : List Stmt} {s s' : State} (hrun : run [] H = some s) {c : Bool} {op : Src}
    {args : List Src} (hs : step s (.build c op args) = some s') (b : Base) :
    evalNamed s' s.length = some b ↔ Now H (.call op args) b := by
  have hrun' : run [] (H ++ [.build c op args]) = some s' := by
    rw [run_append, hrun]
    simp [run, hs]
  have hI := inv_run hrun
  have hb : Born (H ++ [.build c op args]) s.length H.length (.build c op args) := by
    rw [hI.length]
    exact born_last H rfl
  rw [step] at hs
  obtain ⟨n, hn, -⟩ := Option.map_eq_some_iff.1 hs
  rw [eval_named hrun' hb b]
  constructor
  · rintro ⟨-, h⟩
    exact now_of_means (means_build_iff.1 h) rfl
  · intro h
    refine ⟨?_, means_build_iff.2 (means_of_now hrun h hn)⟩
    rw [alive_build]
    intro hd
    have := hI.gone _ hd
    omega

/-! ### Cases -/

/-- Addition, an operation without members. -/
def plus : Src := .rval (.fn List.sum)

/-- A large `x`, a small `y`, `auto e = x + y;`, `x = 10; y = 20;`: `e` is 10 + 2. -/
def snapshotExample : List Stmt :=
  [.create false (.num 1), .create true (.num 2), .build false plus [.lval 0, .lval 1], .assign 0 10, .assign 1 20]

example : ∃ s, run [] snapshotExample = some s ∧ evalNamed s 2 = some (.num 12) := by
  refine ⟨_, rfl, ?_⟩
  simp [evalNamed, plus, eval, evalAll]

example : Refers snapshotExample 2 (.call plus [.lval 0, .lval 1]) 0 ∧
    ¬ Refers snapshotExample 2 (.call plus [.lval 0, .lval 1]) 1 := by
  refine ⟨.arg List.mem_cons_self (.base (t' := 0) (b := .num 1) ⟨rfl, rfl, rfl⟩ (by omega)), fun h => ?_⟩
  have h1 : Born snapshotExample 1 1 (.create true (.num 2)) := ⟨rfl, rfl, rfl⟩
  have h0 : Born snapshotExample 0 0 (.create false (.num 1)) := ⟨rfl, rfl, rfl⟩
  cases h with
  | op h => cases h
  | arg ha h =>
    simp only [List.mem_cons, List.not_mem_nil, or_false] at ha
    rcases ha with rfl | rfl
    · cases h with
      | through hb _ => cases (h0.unique hb).2
    · cases h with
      | base hb _ => cases (h1.unique hb).2
      | expr hb _ => cases (h1.unique hb).2
      | through hb _ => cases (h1.unique hb).2

/-- `auto f() { auto m = x * y; return m + 1; }`: what is returned refers to the local variable `m`, the type of
which is an expression, so it must not be evaluated; `return x * y + 1;` may be, if `x` and `y` are small. -/
def returnExample : List Stmt :=
  [.create true (.num 3), .create true (.num 4), .build false (.rval (.fn List.prod)) [.lval 0, .lval 1],
    .build false plus [.lval 2, .rval (.num 1)],
    .build false plus [.call (.rval (.fn List.prod)) [.lval 0, .lval 1], .rval (.num 1)], .destroy 2]

example : ∃ s, run [] returnExample = some s ∧ evalNamed s 3 = none ∧ evalNamed s 4 = some (.num 13) := by
  refine ⟨_, rfl, ?_, ?_⟩
  · exact eval_dangling_ub (H := returnExample) rfl (t := 3) (p := 2) ⟨rfl, rfl, rfl⟩
      (.arg List.mem_cons_self (.expr (t' := 2) ⟨rfl, rfl, rfl⟩ (by omega))) (by simp [returnExample])
  · simp [evalNamed, plus, eval, evalAll]

end Actl.Lifetime
