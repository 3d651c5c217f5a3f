import Verif.Model.Maps
import Verif.Lemmas.Ints
import Verif.Spec.Maps
import Mathlib.Data.List.Basic
import Mathlib.Data.List.Induction
import Mathlib.Tactic.Linarith
import Mathlib.Tactic.Ring

/-!
C33 (accounting map), C34 (map adaptors).
-/

namespace Actl.Maps

open Actl.Ints

/-! ### Accounting map -/

section Accounting

variable {K : Type} [DecidableEq K]

theorem firsts_append (ks : List K) (k : K) :
    firsts (ks ++ [k]) = if k ∈ firsts ks then firsts ks else firsts ks ++ [k] := by
  unfold firsts
  rw [List.foldl_append]
  rfl

theorem mem_firsts (ks : List K) (k : K) : k ∈ firsts ks ↔ k ∈ ks := by
  induction ks using List.reverseRecOn with
  | nil => simp [firsts]
  | append_singleton ks x ih =>
    rw [firsts_append]
    split
    · rename_i h
      rw [List.mem_append, List.mem_singleton, ← ih]
      exact ⟨Or.inl, fun h' => h'.elim id (fun e => e ▸ h)⟩
    · simp [ih]

theorem nodup_firsts (ks : List K) : (firsts ks).Nodup := by
  induction ks using List.reverseRecOn with
  | nil => simp [firsts]
  | append_singleton ks x ih =>
    rw [firsts_append]
    split
    · exact ih
    · rename_i h
      rw [List.nodup_append]
      exact ⟨ih, by simp, fun a ha b hb e => h (by rw [List.mem_singleton.mp hb] at e; exact e ▸ ha)⟩

theorem firsts_prefix (ks ls : List K) : firsts ks <+: firsts (ks ++ ls) := by
  induction ls using List.reverseRecOn with
  | nil => simp
  | append_singleton ls x ih =>
    rw [← List.append_assoc, firsts_append]
    split
    · exact ih
    · exact ih.trans (List.prefix_append _ _)

/-- The map after the requests `ks` (not used in statements). -/
def after (w : Nat) (ks : List K) : Acc w K :=
  ⟨(firsts ks).mapIdx (fun i k => (k, BitVec.ofNat w i)), firsts ks⟩

theorem find_after (l : List K) (hl : l.Nodup) (w : Nat) (f : Nat → BitVec w) (k : K) :
    (l.mapIdx (fun i k => (k, f i))).find? (fun p => p.1 = k) =
      if k ∈ l then some (k, f (l.idxOf k)) else none := by
  induction l generalizing f with
  | nil => simp
  | cons x l ih =>
    rw [List.nodup_cons] at hl
    rw [List.mapIdx_cons, List.find?_cons]
    by_cases h : x = k
    · subst h; simp
    · have hkx : ¬ k = x := fun e => h e.symm
      simp only [h, decide_false, List.mem_cons, hkx, false_or]
      rw [ih hl.2 (fun i => f (i + 1))]
      rw [List.idxOf_cons_ne _ h]

theorem get_after (w : Nat) (ks : List K) (k : K) :
    (after w ks).get k = (BitVec.ofNat w ((firsts (ks ++ [k])).idxOf k), after w (ks ++ [k])) := by
  have hf := find_after (firsts ks) (nodup_firsts ks) w (BitVec.ofNat w) k
  unfold Acc.get insert after
  simp only
  rw [hf, firsts_append]
  by_cases h : k ∈ firsts ks
  · simp [h]
  · simp [h, List.idxOf_append]

theorem getAll_after (w : Nat) (ks ls : List K) :
    (after w ks).getAll ls =
      (ls.map (fun k => BitVec.ofNat w ((firsts (ks ++ ls)).idxOf k)), after w (ks ++ ls)) := by
  induction ls generalizing ks with
  | nil => simp [Acc.getAll]
  | cons k ls ih =>
    simp only [Acc.getAll]
    rw [get_after]
    simp only
    rw [ih]
    simp only [List.append_assoc, List.cons_append, List.nil_append, List.map_cons]
    congr 3
    have hk : k ∈ firsts (ks ++ [k]) := by rw [mem_firsts]; simp
    have hp := firsts_prefix (ks ++ [k]) ls
    rw [List.append_assoc, List.cons_append, List.nil_append] at hp
    obtain ⟨t, ht⟩ := hp
    rw [← ht, List.idxOf_append_of_mem hk]

theorem empty_eq_after (w : Nat) : (⟨[], []⟩ : Acc w K) = after w [] := by simp [after, firsts]

/-- **C33** On every request history with at most `2^w` different keys (`w` bits of the number
type): the number of a key is the count of different keys requested before its first request;
equal numbers are given exactly to equal keys; the numbers are smaller than the count of different
keys; the inverse lookup returns the key. -/
theorem accounting_correct (w : Nat) (ks : List K) (h : (firsts ks).length ≤ 2 ^ w) :
    ((⟨[], []⟩ : Acc w K).getAll ks).1.length = ks.length ∧
    ∀ i, (hi : i < ks.length) → ∃ v, ((⟨[], []⟩ : Acc w K).getAll ks).1[i]? = some v ∧
      v.toNat = (firsts (ks.take (ks.idxOf ks[i]))).length ∧
      v.toNat < (firsts ks).length ∧
      ((⟨[], []⟩ : Acc w K).getAll ks).2.invert v = some ks[i] ∧
      ∀ j, (hj : j < ks.length) →
        (((⟨[], []⟩ : Acc w K).getAll ks).1[j]? = some v ↔ ks[j] = ks[i]) := by
  rw [empty_eq_after, getAll_after]
  simp only [List.nil_append, List.length_map, List.getElem?_map, true_and]
  intro i hi
  have hmem : ∀ j, (hj : j < ks.length) → (firsts ks).idxOf ks[j] < (firsts ks).length :=
    fun j hj => List.idxOf_lt_length_of_mem ((mem_firsts ks _).mpr (List.getElem_mem hj))
  have hto : ∀ j, (hj : j < ks.length) →
      (BitVec.ofNat w ((firsts ks).idxOf ks[j])).toNat = (firsts ks).idxOf ks[j] := by
    intro j hj
    rw [BitVec.toNat_ofNat]
    exact Nat.mod_eq_of_lt (Nat.lt_of_lt_of_le (hmem j hj) h)
  refine ⟨_, by rw [List.getElem?_eq_getElem hi]; rfl, ?_, ?_, ?_, ?_⟩
  · rw [hto i hi]
    have hlt : ks.idxOf ks[i] < ks.length := List.idxOf_lt_length_of_mem (List.getElem_mem hi)
    have hsplit : ks = ks.take (ks.idxOf ks[i]) ++ [ks[i]] ++ ks.drop (ks.idxOf ks[i] + 1) := by
      have h1 : ks[ks.idxOf ks[i]] = ks[i] := List.getElem_idxOf hlt
      conv => lhs; rw [← List.take_append_drop (ks.idxOf ks[i]) ks, List.drop_eq_getElem_cons hlt, h1]
      simp
    have hnot : ks[i] ∉ ks.take (ks.idxOf ks[i]) := by
      intro hm
      obtain ⟨n, hn, he⟩ := List.getElem_of_mem hm
      rw [List.length_take] at hn
      rw [List.getElem_take] at he
      have : ks.idxOf ks[i] ≤ n := by
        rcases Nat.lt_or_ge n (ks.idxOf ks[i]) with hlt' | hge
        · have := List.not_of_lt_findIdx (p := (· == ks[i])) (xs := ks) (i := n) (by simpa [List.idxOf] using hlt')
          simp [he] at this
        · exact hge
      omega
    generalize ks.take (ks.idxOf ks[i]) = a at hsplit hnot
    generalize ks.drop (ks.idxOf ks[i] + 1) = b at hsplit
    generalize ks[i] = x at *
    obtain ⟨t, ht⟩ := firsts_prefix (a ++ [x]) b
    rw [← hsplit, firsts_append, if_neg (by rw [mem_firsts]; exact hnot)] at ht
    rw [← ht, List.append_assoc, List.idxOf_append_of_notMem (by rw [mem_firsts]; exact hnot)]
    simp
  · rw [hto i hi]; exact hmem i hi
  · unfold Acc.invert
    rw [hto i hi]
    simp only [after]
    rw [List.getElem?_eq_getElem (hmem i hi), List.getElem_idxOf]
  · intro j hj
    rw [List.getElem?_eq_getElem hj]
    simp only [Option.map_some, Option.some.injEq]
    refine ⟨fun he => ?_, fun he => by rw [he]⟩
    have := congrArg BitVec.toNat he
    rw [hto j hj, hto i hi] at this
    exact (List.idxOf_inj ((mem_firsts ks _).mpr (List.getElem_mem hj))).mp this

end Accounting

example : ((⟨[], []⟩ : Acc 8 Nat).getAll [7, 3, 7, 9, 3]).1 = [0, 1, 0, 2, 1] ∧
    (firsts [7, 3, 7, 9, 3]).length ≤ 2 ^ 8 := by decide

/-- **C33** (limit) After `2^w` different keys the next new key gets the number 0 of the first. -/
theorem accounting_wraps {K : Type} [DecidableEq K] (w : Nat) (ks : List K) (k : K) (hk : k ∉ ks)
    (h : (firsts ks).length = 2 ^ w) :
    (((⟨[], []⟩ : Acc w K).getAll ks).2.get k).1 = 0 := by
  rw [empty_eq_after, getAll_after]
  simp only [List.nil_append]
  rw [get_after, firsts_append, if_neg (by rw [mem_firsts]; exact hk),
    List.idxOf_append_of_notMem (by rw [mem_firsts]; exact hk), h]
  apply BitVec.eq_of_toNat_eq
  simp

example : (((⟨[], []⟩ : Acc 1 Nat).getAll [7, 3]).2.get 5).1 = 0 := by decide

/-! ### Adaptors -/

section Adaptors

variable {σ τ K A V : Type}

/-- What the laws ask of a map; `wf` are its legal states. -/
structure Readable (m : MapOps σ K V) (wf : σ → Prop) : Prop where
  wf_put : ∀ s k v, wf s → wf (m.put s k v)
  get_put : ∀ s k v, wf s → m.get (m.put s k v) k = v
  get_put_ne : ∀ s k k' v, wf s → k' ≠ k → m.get (m.put s k v) k' = m.get s k'

/-- An inverse that undoes `get` (for the keys and values satisfying the predicates). -/
structure Invertible (m : MapOps σ K V) (s : σ) (dom : K → Prop) (cod : V → Prop) : Prop where
  maps : ∀ k, dom k → cod (m.get s k)
  maps' : ∀ v, cod v → dom (m.invert s v)
  left : ∀ k, dom k → m.invert s (m.get s k) = k
  right : ∀ v, cod v → m.get s (m.invert s v) = v

/-- **C34** An associative container obeys the get/put laws, whatever it contains. -/
theorem assoc_laws {K V : Type} [DecidableEq K] (zero : V) (noKey : K) :
    Readable (assoc zero noKey) (fun _ => True) := by
  have find_map : ∀ (m : List (K × V)) (k k' : K) (v : V),
      (m.map (fun p => if p.1 = k then (k, v) else p)).find? (fun p => p.1 = k') =
        (m.find? (fun p => p.1 = k')).map (fun p => if p.1 = k then (k, v) else p) := by
    intro m k k' v
    induction m with
    | nil => rfl
    | cons p m ih =>
      rw [List.map_cons, List.find?_cons, List.find?_cons]
      by_cases h : p.1 = k
      · rw [if_pos h]
        by_cases h' : k = k'
        · simp [h, h']
        · simp only [h, h', decide_false]; exact ih
      · rw [if_neg h]
        by_cases h' : p.1 = k'
        · simp only [h', decide_true, Option.map_some]
          rw [if_neg (h' ▸ h)]
        · simp only [h', decide_false]; exact ih
  refine ⟨fun _ _ _ _ => trivial, fun m k v _ => ?_, fun m k k' v _ hne => ?_⟩
  · simp only [assoc]
    by_cases h : m.any (fun p => p.1 = k) = true
    · rw [if_pos h, find_map]
      rw [List.any_eq_true] at h
      obtain ⟨p, hp, hpk⟩ := h
      cases hf : m.find? (fun p => p.1 = k) with
      | none => rw [List.find?_eq_none] at hf; exact absurd hpk (hf p hp)
      | some q =>
        have := List.find?_some hf
        simp only [decide_eq_true_eq] at this
        simp [this]
    · rw [if_neg h, List.find?_append]
      have : m.find? (fun p => p.1 = k) = none := by
        rw [List.find?_eq_none]
        intro p hp hpk
        exact h (List.any_eq_true.mpr ⟨p, hp, hpk⟩)
      rw [this]; simp
  · simp only [assoc]
    by_cases h : m.any (fun p => p.1 = k) = true
    · rw [if_pos h, find_map]
      cases hf : m.find? (fun p => p.1 = k') with
      | none => rfl
      | some q =>
        have := List.find?_some hf
        simp only [decide_eq_true_eq] at this
        simp [this, hne]
    · rw [if_neg h, List.find?_append]
      have hne' : ¬ k = k' := fun e => hne e.symm
      cases m.find? (fun p => p.1 = k') <;> simp [hne']

/-- **C34** After any history of puts into an empty associative container, `get` returns the value
put last at the key, or the default value if there was none. -/
theorem assoc_history {K V : Type} [DecidableEq K] (zero : V) (noKey : K) (h : List (K × V)) (k : K) :
    (assoc zero noKey).get (h.foldl (fun s p => (assoc zero noKey).put s p.1 p.2) []) k =
      (lastPut h k).getD zero := by
  induction h using List.reverseRecOn with
  | nil => rfl
  | append_singleton h p ih =>
    simp only [List.foldl_append, List.foldl_cons, List.foldl_nil, lastPut]
    by_cases hp : p.1 = k
    · rw [if_pos hp, hp, (assoc_laws zero noKey).get_put _ _ _ trivial]; rfl
    · rw [if_neg hp, (assoc_laws zero noKey).get_put_ne _ _ _ _ trivial (fun e => hp e.symm), ih]; rfl

example : (assoc (0 : Nat) "").get ([("a", 1), ("b", 2), ("a", 3)].foldl
    (fun s p => (assoc (0 : Nat) "").put s p.1 p.2) []) "a" = 3 := by decide

/-- **C34** The range of an associative container lists every key at most once, with its value. -/
theorem assoc_range {K V : Type} [DecidableEq K] (zero : V) (noKey : K) (h : List (K × V)) :
    let s := h.foldl (fun s p => (assoc zero noKey).put s p.1 p.2) []
    (((assoc zero noKey).range s).map Prod.fst).Nodup ∧
    ∀ k v, (k, v) ∈ (assoc zero noKey).range s ↔ lastPut h k = some v := by
  have keys : ∀ (m : List (K × V)) k v, ((assoc zero noKey).put m k v).map Prod.fst =
      if k ∈ m.map Prod.fst then m.map Prod.fst else m.map Prod.fst ++ [k] := by
    intro m k v
    have hm : (m.any (fun p => p.1 = k) = true) ↔ k ∈ m.map Prod.fst := by
      simp [List.any_eq_true]
    simp only [assoc]
    by_cases h : k ∈ m.map Prod.fst
    · rw [if_pos (hm.mpr h), if_pos h, List.map_map]
      apply List.map_congr_left
      intro p _
      simp only [Function.comp]
      split
      · rename_i e; exact e.symm
      · rfl
    · rw [if_neg (fun e => h (hm.mp e)), if_neg h]; simp
  have nd : ∀ (h : List (K × V)),
      ((h.foldl (fun s p => (assoc zero noKey).put s p.1 p.2) []).map Prod.fst).Nodup := by
    intro h
    induction h using List.reverseRecOn with
    | nil => simp
    | append_singleton h p ih =>
      simp only [List.foldl_append, List.foldl_cons, List.foldl_nil]
      rw [keys]
      split
      · exact ih
      · rename_i hn
        rw [List.nodup_append]
        exact ⟨ih, by simp, by simpa using fun a b hab e => hn (by rw [← e]; exact List.mem_map.mpr ⟨_, hab, rfl⟩)⟩
  refine ⟨nd h, ?_⟩
  induction h using List.reverseRecOn with
  | nil => simp [assoc, lastPut]
  | append_singleton h p ih =>
    intro k v
    simp only [List.foldl_append, List.foldl_cons, List.foldl_nil, lastPut]
    generalize hs : h.foldl (fun s p => (assoc zero noKey).put s p.1 p.2) [] = m at ih ⊢
    have ih' : ∀ k v, (k, v) ∈ m ↔ lastPut h k = some v := ih
    have hput : (k, v) ∈ (assoc zero noKey).put m p.1 p.2 ↔
        (p.1 = k ∧ p.2 = v) ∨ (p.1 ≠ k ∧ (k, v) ∈ m) := by
      simp only [assoc]
      split
      · rename_i hany
        rw [List.mem_map]
        constructor
        · rintro ⟨q, hq, he⟩
          split at he
          · left; simpa [Prod.ext_iff] using he
          · rename_i hne; right; subst he; exact ⟨fun e => hne e.symm, hq⟩
        · rintro (⟨h1, h2⟩ | ⟨h1, h2⟩)
          · rw [List.any_eq_true] at hany
            obtain ⟨q, hq, hqk⟩ := hany
            refine ⟨q, hq, ?_⟩
            rw [if_pos (by simpa using hqk), ← h1, ← h2]
          · exact ⟨(k, v), h2, by rw [if_neg (fun e => h1 e.symm)]⟩
      · rename_i hany
        rw [List.mem_append, List.mem_singleton, Prod.ext_iff]
        constructor
        · rintro (h1 | h1)
          · right
            refine ⟨fun e => hany ?_, h1⟩
            rw [List.any_eq_true]
            exact ⟨(k, v), h1, by simp [e]⟩
          · left; exact ⟨h1.1.symm, h1.2.symm⟩
        · rintro (h1 | h1)
          · right; exact ⟨h1.1.symm, h1.2.symm⟩
          · left; exact h1.2
    show (k, v) ∈ (assoc zero noKey).put m p.1 p.2 ↔ _
    rw [hput]
    by_cases hp : p.1 = k
    · simp [hp]
    · simp only [hp, false_and, false_or, ne_eq, not_false_eq_true, true_and, if_false]
      exact ih' k v

/-- **C34** The composition looks up through both maps; put through the second map (`writable2`)
obeys the laws at keys with different images, if the first map is injective between them. -/
theorem composite_put2 (m1 : MapOps σ K A) (m2 : MapOps τ A V) (wf : τ → Prop) (h2 : Readable m2 wf)
    (it : Bool) (s : σ × τ) (hs : wf s.2) (k : K) (v : V) :
    let c := composite m1 m2 true it
    (c.put s k v).1 = s.1 ∧ wf (c.put s k v).2 ∧ c.get (c.put s k v) k = v ∧
    (∀ k', m1.get s.1 k' = m1.get s.1 k → c.get (c.put s k v) k' = v) ∧
    ∀ k', m1.get s.1 k' ≠ m1.get s.1 k → c.get (c.put s k v) k' = c.get s k' := by
  simp only [composite, if_true]
  refine ⟨trivial, h2.wf_put _ _ _ hs, h2.get_put _ _ _ hs, fun k' hk' => ?_, fun k' hk' => ?_⟩
  · rw [hk']; exact h2.get_put _ _ _ hs
  · exact h2.get_put_ne _ _ _ _ hs hk'

/-- **C34** Otherwise put goes to the first map, through the inverse of the second. -/
theorem composite_put1 (m1 : MapOps σ K A) (m2 : MapOps τ A V) (wf : σ → Prop) (h1 : Readable m1 wf)
    (it : Bool) (s : σ × τ) (hs : wf s.1) (dom : A → Prop) (cod : V → Prop)
    (h2 : Invertible m2 s.2 dom cod) (k : K) (v : V) (hv : cod v) :
    let c := composite m1 m2 false it
    (c.put s k v).2 = s.2 ∧ wf (c.put s k v).1 ∧ c.get (c.put s k v) k = v ∧
    ∀ k', k' ≠ k → c.get (c.put s k v) k' = c.get s k' := by
  simp only [composite]
  refine ⟨rfl, h1.wf_put _ _ _ hs, ?_, fun k' hk' => ?_⟩
  · simp only [Bool.false_eq_true, if_false]
    rw [h1.get_put _ _ _ hs, h2.right v hv]
  · simp only [Bool.false_eq_true, if_false]
    rw [h1.get_put_ne _ _ _ _ hs hk']

/-- **C34** The inverse of a composition undoes its lookup. -/
theorem composite_invert (m1 : MapOps σ K A) (m2 : MapOps τ A V) (w it : Bool) (s : σ × τ)
    (dom : K → Prop) (mid : A → Prop) (cod : V → Prop) (h1 : Invertible m1 s.1 dom mid)
    (h2 : Invertible m2 s.2 mid cod) : Invertible (composite m1 m2 w it) s dom cod where
  maps k hk := h2.maps _ (h1.maps k hk)
  maps' v hv := h1.maps' _ (h2.maps' v hv)
  left k hk := by
    show m1.invert s.1 (m2.invert s.2 (m2.get s.2 (m1.get s.1 k))) = k
    rw [h2.left _ (h1.maps k hk), h1.left k hk]
  right v hv := by
    show m2.get s.2 (m1.get s.1 (m1.invert s.1 (m2.invert s.2 v))) = v
    rw [h1.right _ (h2.maps' v hv), h2.right v hv]

/-- **C34** Iterating a composition through its first map gives the keys of that map with their
values under the composition. -/
theorem composite_range1 (m1 : MapOps σ K A) (m2 : MapOps τ A V) (w : Bool) (s : σ × τ)
    (h : ∀ p ∈ m1.range s.1, m1.get s.1 p.1 = p.2) :
    ((composite m1 m2 w true).range s).map Prod.fst = (m1.range s.1).map Prod.fst ∧
    ∀ p ∈ (composite m1 m2 w true).range s, (composite m1 m2 w true).get s p.1 = p.2 := by
  simp only [composite, if_true]
  refine ⟨by rw [List.map_map]; rfl, ?_⟩
  intro p hp
  obtain ⟨q, hq, rfl⟩ := List.mem_map.mp hp
  simp only [h q hq]

/-- **C34** And through the second map, the same if the first map is invertible on its keys. -/
theorem composite_range2 (m1 : MapOps σ K A) (m2 : MapOps τ A V) (w : Bool) (s : σ × τ)
    (h : ∀ p ∈ m2.range s.2, m2.get s.2 p.1 = p.2)
    (h1 : ∀ p ∈ m2.range s.2, m1.get s.1 (m1.invert s.1 p.1) = p.1) :
    ((composite m1 m2 w false).range s).map Prod.snd = (m2.range s.2).map Prod.snd ∧
    ∀ p ∈ (composite m1 m2 w false).range s, (composite m1 m2 w false).get s p.1 = p.2 := by
  simp only [composite, Bool.false_eq_true, if_false]
  refine ⟨by rw [List.map_map]; rfl, ?_⟩
  intro p hp
  obtain ⟨q, hq, rfl⟩ := List.mem_map.mp hp
  simp only [h1 q hq, h q hq]

/-- Witnesses: an invertible first map (negation) with an associative container. -/
example :
    let neg : MapOps Unit Int Int := ⟨fun _ k => -k, fun s _ _ => s, fun _ v => -v, fun _ => []⟩
    Invertible neg () (fun _ => True) (fun _ => True) ∧
    (composite neg (assoc (0 : Int) 0) true false).get
      ((composite neg (assoc (0 : Int) 0) true false).put ((), []) 3 7) 3 = 7 ∧
    (composite neg (assoc (0 : Int) 0) true false).range
      ((composite neg (assoc (0 : Int) 0) true false).put ((), []) 3 7) = [(3, 7)] := by
  refine ⟨⟨fun _ _ => trivial, fun _ _ => trivial, fun k _ => by simp, fun k _ => by simp⟩, by decide, by decide⟩

/-- **C34** Sequences as maps from positions. -/
theorem seq_laws {V : Type} (c : List V) (i : Nat) (hi : i < c.length) (v : V) :
    ∃ c', seqPut c i v = some c' ∧ c'.length = c.length ∧ seqGet c' i = some v ∧
      ∀ j, j ≠ i → seqGet c' j = seqGet c j := by
  refine ⟨c.set i v, by simp [seqPut, hi], by simp, by simp [seqGet, hi], fun j hj => ?_⟩
  simp [seqGet, List.getElem?_set_ne (fun e => hj e.symm)]

/-- **C34** Iterating a sequence as a map: every position once, in order, with its element. -/
theorem seq_range {V : Type} (c : List V) :
    (seqRange c).map Prod.fst = List.range c.length ∧ (seqRange c).map Prod.snd = c := by
  have h : seqRange c = c.mapIdx (fun i v => (i, v)) := by
    unfold seqRange seqGet
    induction c using List.reverseRecOn with
    | nil => rfl
    | append_singleton c x ih =>
      rw [List.length_append, List.length_singleton, List.range_succ, List.filterMap_append, List.mapIdx_append, ← ih]
      congr 1
      · apply List.filterMap_congr
        intro i hi
        rw [List.mem_range] at hi
        rw [List.getElem?_append_left hi]
      · simp
  rw [h]
  constructor
  · apply List.ext_getElem <;> simp
  · apply List.ext_getElem <;> simp

/-- **C34** A filtered map iterates over exactly the pairs whose value satisfies the predicate. -/
theorem filtered_range_spec (m : MapOps σ K V) (pred : V → Bool) (s : σ) :
    (filteredRange m pred s).Sublist (m.range s) ∧
    ∀ p, p ∈ filteredRange m pred s ↔ p ∈ m.range s ∧ pred p.2 = true := by
  exact ⟨List.filter_sublist, fun p => by simp [filteredRange]⟩

end Adaptors

/-! ### Shifts -/

/-- **C34** A shift by `offset` and its inverse: `get` gives `key - offset` and `invert` undoes it,
for every key type of at least 8 bits and every value type, if `key - offset` fits the value and
the key type. -/
theorem shift_roundtrip (K V : IntT) (hK : 0 < K.width) (hV : 0 < V.width) (offset key : Int)
    (ho : K.Has offset) (hk : K.Has key) (hd : K.Has (key - offset)) (hv : V.Has (key - offset)) :
    shiftGet K V offset key = some (key - offset) ∧
    shiftInvert K offset (key - offset) = some key := by
  have hp : ∀ x, K.Has x → K.promote.arith x = some x := by
    exact fun x hx => arith_promote K hK x hx
  constructor
  · unfold shiftGet
    rw [hp _ hd]
    simp only
    rw [cast_of_has V _ hv hV]
  · unfold shiftInvert
    rw [cast_of_has K _ hd hK, show key - offset + offset = key by omega, hp _ hk]
    simp only
    rw [cast_of_has K _ hk hK]

/-- **C34** For unsigned key types of at least 32 bits with the value type the same, `invert` undoes
`get` for all keys and offsets, differences below zero included. -/
theorem shift_roundtrip_unsigned (w : Nat) (hw : 32 ≤ w) (offset key : Int)
    (ho : (⟨false, w⟩ : IntT).Has offset) (hk : (⟨false, w⟩ : IntT).Has key) :
    ∃ v, shiftGet ⟨false, w⟩ ⟨false, w⟩ offset key = some v ∧ (⟨false, w⟩ : IntT).Has v ∧
      shiftInvert ⟨false, w⟩ offset v = some key := by
  have hpr : (⟨false, w⟩ : IntT).promote = ⟨false, w⟩ := by unfold IntT.promote; rw [if_neg (by simp; omega)]
  have hpos : (0 : Int) < 2 ^ w := by positivity
  simp only [IntT.Has, IntT.lo, IntT.hi, Bool.false_eq_true, if_false] at hk ho
  refine ⟨(key - offset) % 2 ^ w, ?_, ?_, ?_⟩
  · unfold shiftGet
    rw [hpr]
    simp [IntT.arith, IntT.cast, IntT.lo]
  · simp only [IntT.Has, IntT.lo, IntT.hi, Bool.false_eq_true, if_false]
    exact ⟨Int.emod_nonneg _ (by omega), Int.emod_lt_of_pos _ hpos⟩
  · unfold shiftInvert
    rw [hpr]
    simp only [IntT.arith, IntT.cast, IntT.lo, Bool.false_eq_true, if_false, sub_zero, add_zero,
      Int.emod_emod_of_dvd, dvd_refl, Int.emod_add_emod, sub_add_cancel]
    rw [Int.emod_eq_of_lt hk.1 hk.2]

/-- **C34** A narrower value type loses information: with unsigned keys of width `w` and unsigned
values of width `v`, the inverse undoes `get` exactly at the keys whose distance from the offset fits
the value type. -/
theorem shift_narrow_iff (w v : Nat) (hw : 32 ≤ w) (hv : v ≤ w) (offset key : Int)
    (hk : (⟨false, w⟩ : IntT).Has key) :
    ∃ x, shiftGet ⟨false, w⟩ ⟨false, v⟩ offset key = some x ∧
      (shiftInvert ⟨false, w⟩ offset x = some key ↔ (key - offset) % 2 ^ w < 2 ^ v) := by
  have hpr : (⟨false, w⟩ : IntT).promote = ⟨false, w⟩ := by unfold IntT.promote; rw [if_neg (by simp; omega)]
  have hpos : (0 : Int) < 2 ^ w := by positivity
  have hvpos : (0 : Int) < 2 ^ v := by positivity
  have hvw : (2 ^ v : Int) ≤ 2 ^ w := pow_le_pow_right₀ (by norm_num) hv
  simp only [IntT.Has, IntT.lo, IntT.hi, Bool.false_eq_true, if_false] at hk
  refine ⟨(key - offset) % 2 ^ w % 2 ^ v, ?_, ?_⟩
  · unfold shiftGet
    rw [hpr]
    simp [IntT.arith, IntT.cast, IntT.lo]
  · unfold shiftInvert
    rw [hpr]
    simp only [IntT.arith, IntT.cast, IntT.lo, Bool.false_eq_true, if_false, sub_zero, add_zero,
      Option.some.injEq]
    set d := (key - offset) % 2 ^ w with hd
    have hd0 : 0 ≤ d := Int.emod_nonneg _ (by omega)
    have hdw : d < 2 ^ w := Int.emod_lt_of_pos _ hpos
    have hr0 : 0 ≤ d % 2 ^ v := Int.emod_nonneg _ (by omega)
    have hrv : d % 2 ^ v < 2 ^ v := Int.emod_lt_of_pos _ hvpos
    rw [Int.emod_eq_of_lt hr0 (by omega), Int.emod_emod_of_dvd _ (dvd_refl _)]
    constructor
    · intro h
      have h1 : d % 2 ^ w = d % 2 ^ v % 2 ^ w := by
        have e3 : (d % 2 ^ v + offset - offset) % 2 ^ w = (key - offset) % 2 ^ w := by
          rw [← Int.emod_sub_emod, h]
        rw [add_sub_cancel_right] at e3
        rw [e3, hd, Int.emod_emod_of_dvd _ (dvd_refl _)]
      rw [Int.emod_eq_of_lt hd0 hdw, Int.emod_eq_of_lt hr0 (by omega)] at h1
      omega
    · intro h
      rw [Int.emod_eq_of_lt hd0 h, hd, Int.emod_add_emod, sub_add_cancel, Int.emod_eq_of_lt hk.1 hk.2]

example : shiftGet ⟨false, 32⟩ ⟨false, 8⟩ 0 256 = some 0 ∧ shiftInvert ⟨false, 32⟩ 0 0 ≠ some 256 := by
  decide
example : shiftGet ⟨true, 32⟩ ⟨false, 64⟩ 10 17 = some 7 ∧ shiftInvert ⟨true, 32⟩ 10 7 = some 17 := by decide

/-- **C34** The identity map undoes itself whenever the key fits the value type. -/
theorem identity_roundtrip (K V : IntT) (hK : 0 < K.width) (hV : 0 < V.width) (key : Int)
    (hk : K.Has key) (hv : V.Has key) :
    identityGet V key = key ∧ identityInvert K (identityGet V key) = key := by
  unfold identityGet identityInvert
  rw [cast_of_has V key hv hV, cast_of_has K key hk hK]
  exact ⟨rfl, rfl⟩

/-- ... and always between integer types of the same width. -/
theorem identity_same_width (K V : IntT) (hw : K.width = V.width) (hK : 0 < K.width) (key : Int)
    (hk : K.Has key) : identityInvert K (identityGet V key) = key := by
  have h1 := cast_of_has K key hk hK
  unfold identityGet identityInvert
  unfold IntT.cast at h1 ⊢
  rw [← hw]
  rw [show (key - V.lo) % 2 ^ K.width + V.lo - K.lo = (key - V.lo) % 2 ^ K.width + (V.lo - K.lo) by omega,
    Int.emod_add_emod, show key - V.lo + (V.lo - K.lo) = key - K.lo by omega]
  exact h1

example : identityInvert ⟨true, 32⟩ (identityGet ⟨false, 32⟩ (-5)) = -5 := by decide

end Actl.Maps
