import Verif.Model.MapTree
import Mathlib.Tactic.Common
import Mathlib.Data.List.Nodup
import Mathlib.Data.List.Basic

/-!
**C107**: laws of maps nested to any depth by `composite_map` and `filtered_map`.
-/

namespace Actl.Maps.MapTree

/-! ### Specification -/

/-- The function a map stands for in its present state: composition of the functions of its parts.
Undefined outside of containers and where an `accounting_map` has no number yet. -/
def read : MapTree → Int → Option Int
  | .ident, k => some k
  | .shift o, k => some (k - o)
  | .func f, k => some (f k)
  | .cont c, k => if 0 ≤ k then c[k.toNat]? else none
  | .assoc l, k => some (((l.find? (fun p => p.1 = k)).map Prod.snd).getD 0)
  | .acc _ ks, k => if k ∈ ks then some (ks.idxOf k : Int) else none
  | .comp _ _ m1 m2, k => (m1.read k).bind m2.read
  | .filt _ m, k => m.read k

/-- The place in a container at which the value of a key is stored: the outer map of a composite
one stores it if it can be written to, else the inner one does. -/
def cell : MapTree → Int → Option Int
  | .cont c, k => if 0 ≤ k ∧ k < c.length then some k else none
  | .assoc _, k => some k
  | .comp _ _ m1 m2, k => if m2.writable then (m1.read k).bind m2.cell else m1.cell k
  | .filt _ m, k => m.cell k
  | _, _ => none

/-- The keys that a traversal meets. -/
def Dom : MapTree → Int → Prop
  | .cont c, k => 0 ≤ k ∧ k < c.length
  | .assoc l, k => k ∈ l.map Prod.fst
  | .acc _ ks, k => k ∈ ks
  | .comp _ _ m1 m2, k =>
    if m1.iterable then m1.Dom k else ∃ a, m1.read k = some a ∧ m2.Dom a
  | .filt p m, k => m.Dom k ∧ ∃ v, m.read k = some v ∧ p v = true
  | _, _ => False

/-- Associative containers hold no key twice. -/
def Wf : MapTree → Prop
  | .assoc l => (l.map Prod.fst).Nodup
  | .acc _ ks => ks.Nodup
  | .comp _ _ m1 m2 => m1.Wf ∧ m2.Wf
  | .filt _ m => m.Wf
  | _ => True

/-- Same kinds of maps at the same places. -/
def Same : MapTree → MapTree → Prop
  | .ident, .ident => True
  | .shift o, .shift o' => o = o'
  | .func f, .func f' => f = f'
  | .cont c, .cont c' => c.length = c'.length
  | .assoc _, .assoc _ => True
  | .acc i _, .acc i' _ => i = i'
  | .comp r1 r2 a b, .comp r1' r2' a' b' => r1 = r1' ∧ r2 = r2' ∧ Same a a' ∧ Same b b'
  | .filt p m, .filt p' m' => p = p' ∧ Same m m'
  | _, _ => False

/-! ### Lemmas -/

theorem Same.refl : ∀ t, Same t t
  | .ident => trivial
  | .shift _ => rfl
  | .func _ => rfl
  | .cont _ => rfl
  | .assoc _ => trivial
  | .acc _ _ => rfl
  | .comp _ _ a b => ⟨rfl, rfl, Same.refl a, Same.refl b⟩
  | .filt _ m => ⟨rfl, Same.refl m⟩

theorem Same.trans : ∀ {a b c}, Same a b → Same b c → Same a c := by
  intro a
  induction a with
  | comp r1 r2 x y ihx ihy =>
    intro b c h1 h2
    cases b <;> simp [Same] at h1
    cases c <;> simp [Same] at h2
    exact ⟨h1.1.trans h2.1, h1.2.1.trans h2.2.1, ihx h1.2.2.1 h2.2.2.1, ihy h1.2.2.2 h2.2.2.2⟩
  | filt p m ih =>
    intro b c h1 h2
    cases b <;> simp [Same] at h1
    cases c <;> simp [Same] at h2
    exact ⟨h1.1.trans h2.1, ih h1.2 h2.2⟩
  | _ =>
    intro b c h1 h2
    cases b <;> simp [Same] at h1 <;> cases c <;> simp [Same] at h2 <;> simp_all [Same]

theorem Same.flags : ∀ {a b}, Same a b →
    a.writable = b.writable ∧ a.invertible = b.invertible ∧ a.iterable = b.iterable ∧
    a.isFilt = b.isFilt := by
  intro a
  induction a with
  | comp r1 r2 x y ihx ihy =>
    intro b h
    cases b <;> simp [Same] at h
    obtain ⟨_, _, h1, h2⟩ := h
    have e1 := ihx h1
    have e2 := ihy h2
    simp [writable, invertible, iterable, isFilt, e1, e2]
  | filt p m ih =>
    intro b h
    cases b <;> simp [Same] at h
    have e := ih h.2
    simp [writable, invertible, iterable, isFilt, e]
  | _ =>
    intro b h
    cases b <;> simp [Same] at h <;> simp_all [writable, invertible, iterable, isFilt]

/-- No `filtered_map` directly over a `filtered_map`. -/
def Ok : MapTree → Prop
  | .comp _ _ m1 m2 => m1.Ok ∧ m2.Ok
  | .filt _ m => m.isFilt = false ∧ m.Ok
  | _ => True

/-- What reading may do to a map: numbers may be assigned, nothing else changes. -/
structure Ext (a b : MapTree) : Prop where
  same : Same a b
  wf : a.Wf → b.Wf
  read : ∀ k u, a.read k = some u → b.read k = some u
  cell : ∀ k u, a.read k = some u → b.cell k = a.cell k

theorem Ext.refl (a : MapTree) : Ext a a := ⟨Same.refl a, id, fun _ _ h => h, fun _ _ _ => rfl⟩

theorem Ext.trans {a b c : MapTree} (h1 : Ext a b) (h2 : Ext b c) : Ext a c :=
  ⟨h1.same.trans h2.same, h2.wf ∘ h1.wf, fun k u h => h2.read k u (h1.read k u h),
    fun k u h => (h2.cell k u (h1.read k u h)).trans (h1.cell k u h)⟩

theorem Ext.comp {r1 r2 : Bool} {a a' b b' : MapTree} (ha : Ext a a') (hb : Ext b b') :
    Ext (.comp r1 r2 a b) (.comp r1 r2 a' b') := by
  refine ⟨⟨rfl, rfl, ha.same, hb.same⟩, fun h => ⟨ha.wf h.1, hb.wf h.2⟩, ?_, ?_⟩
  · intro k u h
    simp only [MapTree.read, Option.bind_eq_some_iff] at h ⊢
    obtain ⟨x, hx, hu⟩ := h
    exact ⟨x, ha.read k x hx, hb.read x u hu⟩
  · intro k u h
    simp only [MapTree.read, Option.bind_eq_some_iff] at h
    obtain ⟨x, hx, hu⟩ := h
    simp only [MapTree.cell, ← hb.same.flags.1]
    split
    · rw [hx, ha.read k x hx]; exact hb.cell x u hu
    · exact ha.cell k x hx

theorem Ext.filt {p : Int → Bool} {a a' : MapTree} (ha : Ext a a') :
    Ext (.filt p a) (.filt p a') :=
  ⟨⟨rfl, ha.same⟩, ha.wf, ha.read, ha.cell⟩

theorem findIdx_eq {ks : List Int} {k : Int} :
    ks.findIdx? (fun x => x = k) = if k ∈ ks then some (ks.idxOf k) else none := by
  induction ks with
  | nil => rfl
  | cons x ks ih =>
    by_cases h : x = k
    · subst h; simp [List.findIdx?_cons]
    · rw [List.findIdx?_cons]
      simp only [h, decide_false, Bool.false_eq_true, if_false, ih, List.mem_cons]
      by_cases hk : k ∈ ks
      · simp [hk, List.idxOf_cons_ne _ h]
      · have : ¬ (k = x ∨ k ∈ ks) := by rintro (rfl | h2); exact h rfl; exact hk h2
        rw [if_neg hk, if_neg this]; rfl

/-- `get` gives the value the map stands for afterwards, and otherwise only assigns numbers. -/
theorem get_spec : ∀ (t : MapTree) (k v : Int) (t' : MapTree), t.get k = some (v, t') →
    Ext t t' ∧ t'.read k = some v := by
  intro t
  induction t with
  | ident => intro k v t' h; simp [get] at h; obtain ⟨rfl, rfl⟩ := h; exact ⟨Ext.refl _, rfl⟩
  | shift o => intro k v t' h; simp [get] at h; obtain ⟨rfl, rfl⟩ := h; exact ⟨Ext.refl _, rfl⟩
  | func f => intro k v t' h; simp [get] at h; obtain ⟨rfl, rfl⟩ := h; exact ⟨Ext.refl _, rfl⟩
  | cont c =>
    intro k v t' h
    simp only [get] at h
    split at h
    · rename_i hk
      simp only [Option.some.injEq, Prod.mk.injEq] at h
      obtain ⟨rfl, rfl⟩ := h
      refine ⟨Ext.refl _, ?_⟩
      have : k.toNat < c.length := by omega
      simp [read, hk.1, List.getD_eq_getElem?_getD, List.getElem?_eq_getElem this]
    · simp at h
  | assoc l =>
    intro k v t' h
    simp only [get] at h
    split at h <;> rename_i hf <;> simp only [Option.some.injEq, Prod.mk.injEq] at h <;>
      obtain ⟨rfl, rfl⟩ := h <;> exact ⟨Ext.refl _, by simp [read, hf]⟩
  | acc inv ks =>
    intro k v t' h
    simp only [get, findIdx_eq] at h
    by_cases hk : k ∈ ks
    · simp only [hk, if_true, Option.some.injEq, Prod.mk.injEq] at h
      obtain ⟨rfl, rfl⟩ := h
      exact ⟨Ext.refl _, by simp [read, hk]⟩
    · simp only [hk, if_false, Option.some.injEq, Prod.mk.injEq] at h
      obtain ⟨rfl, rfl⟩ := h
      refine ⟨⟨rfl, ?_, ?_, fun _ _ _ => rfl⟩, ?_⟩
      · intro h
        refine List.nodup_append.mpr ⟨h, by simp, ?_⟩
        intro a ha b hb e
        rw [List.mem_singleton.mp hb] at e
        exact hk (e ▸ ha)
      · intro k' u h
        simp only [read] at h ⊢
        split at h
        · rename_i hk'
          rw [if_pos (by simp [hk']), List.idxOf_append_of_mem hk']; exact h
        · simp at h
      · simp [read, List.idxOf_append_of_notMem hk]
  | comp r1 r2 m1 m2 ih1 ih2 =>
    intro k v t' h
    simp only [get, Option.bind_eq_some_iff] at h
    obtain ⟨⟨a, m1'⟩, h1, ⟨w, m2'⟩, h2, h⟩ := h
    simp only [Option.some.injEq, Prod.mk.injEq] at h
    obtain ⟨rfl, rfl⟩ := h
    obtain ⟨e1, q1⟩ := ih1 _ _ _ h1
    obtain ⟨e2, q2⟩ := ih2 _ _ _ h2
    exact ⟨e1.comp e2, by simp [read, q1, q2]⟩
  | filt p m ih =>
    intro k v t' h
    simp only [get] at h
    split at h
    · simp at h
    · simp only [Option.bind_eq_some_iff] at h
      obtain ⟨⟨a, m'⟩, h1, h⟩ := h
      simp only [Option.some.injEq, Prod.mk.injEq] at h
      obtain ⟨rfl, rfl⟩ := h
      obtain ⟨e1, q1⟩ := ih _ _ _ h1
      exact ⟨e1.filt, q1⟩

/-- Where the map is defined, `get` is too, and changes nothing. -/
theorem get_of_read : ∀ (t : MapTree) (k v : Int), t.Ok → t.read k = some v →
    t.get k = some (v, t) := by
  intro t
  induction t with
  | ident => intro k v _ h; simp [read] at h; simp [get, h]
  | shift o => intro k v _ h; simp [read] at h; simp [get, h]
  | func f => intro k v _ h; simp [read] at h; simp [get, h]
  | cont c =>
    intro k v _ h
    simp only [read] at h
    split at h
    · rename_i hk
      obtain ⟨hlt, e⟩ := List.getElem?_eq_some_iff.mp h
      have : k < c.length := by omega
      simp [get, hk, this, List.getD_eq_getElem?_getD, hlt, e]
    · simp at h
  | assoc l =>
    intro k v _ h
    simp only [read, Option.some.injEq] at h
    simp only [get]
    split <;> rename_i hf <;> simp [hf] at h <;> simp [h]
  | acc inv ks =>
    intro k v _ h
    simp only [read] at h
    split at h
    · rename_i hk
      simp only [Option.some.injEq] at h
      simp [get, findIdx_eq, hk, h]
    · simp at h
  | comp r1 r2 m1 m2 ih1 ih2 =>
    intro k v ok h
    simp only [read, Option.bind_eq_some_iff] at h
    obtain ⟨a, h1, h2⟩ := h
    simp [get, ih1 _ _ ok.1 h1, ih2 _ _ ok.2 h2]
  | filt p m ih =>
    intro k v ok h
    simp [get, ok.1, ih _ _ ok.2 h]

theorem read_of_invert : ∀ (t : MapTree) (k v : Int), t.Wf → t.invert v = some k →
    t.read k = some v := by
  intro t
  induction t with
  | ident => intro k v _ h; simp [invert] at h; simp [read, h]
  | shift o => intro k v _ h; simp [invert] at h; simp only [read, Option.some.injEq]; omega
  | func f => intro k v _ h; simp [invert] at h
  | cont c => intro k v _ h; simp [invert] at h
  | assoc l => intro k v _ h; simp [invert] at h
  | acc inv ks =>
    intro k v wf h
    simp only [invert] at h
    split at h
    · rename_i hi
      obtain ⟨hlt, e⟩ := List.getElem?_eq_some_iff.mp h
      have hmem : k ∈ ks := e ▸ List.getElem_mem hlt
      have : ks.idxOf k = v.toNat := by rw [← e]; exact List.Nodup.idxOf_getElem wf _ hlt
      simp only [read, hmem, if_true, this, Option.some.injEq]
      omega
    · simp at h
  | comp r1 r2 m1 m2 ih1 ih2 =>
    intro k v wf h
    simp only [invert, Option.bind_eq_some_iff] at h
    obtain ⟨a, h2, h1⟩ := h
    simp [read, ih1 _ _ wf.1 h1, ih2 _ _ wf.2 h2]
  | filt p m ih =>
    intro k v wf h
    simp only [invert] at h
    split at h
    · simp at h
    · exact ih _ _ wf h

theorem invert_of_read : ∀ (t : MapTree) (k v : Int), t.Ok → t.invertible = true →
    t.read k = some v → t.invert v = some k := by
  intro t
  induction t with
  | ident => intro k v _ _ h; simp [read] at h; simp [invert, h]
  | shift o => intro k v _ _ h; simp [read] at h; simp only [invert, Option.some.injEq]; omega
  | func f => intro k v _ hi; simp [invertible] at hi
  | cont c => intro k v _ hi; simp [invertible] at hi
  | assoc l => intro k v _ hi; simp [invertible] at hi
  | acc inv ks =>
    intro k v _ hi h
    simp only [invertible] at hi
    simp only [read] at h
    split at h
    · rename_i hk
      simp only [Option.some.injEq] at h
      have hlt := List.idxOf_lt_length_of_mem hk
      have : v.toNat = ks.idxOf k := by omega
      have h0 : 0 ≤ v := by omega
      simp [invert, hi, h0, this, List.getElem?_eq_getElem hlt]
    · simp at h
  | comp r1 r2 m1 m2 ih1 ih2 =>
    intro k v ok hi h
    simp only [invertible, Bool.and_eq_true] at hi
    simp only [read, Option.bind_eq_some_iff] at h
    obtain ⟨a, h1, h2⟩ := h
    simp [invert, ih1 _ _ ok.1 hi.1 h1, ih2 _ _ ok.2 hi.2 h2]
  | filt p m ih =>
    intro k v ok hi h
    simp [invert, ok.1, ih _ _ ok.2 hi h]

/-- Invertible maps send different keys to different values. -/
theorem read_inj : ∀ (t : MapTree), t.invertible = true → ∀ (k k' v : Int),
    t.read k = some v → t.read k' = some v → k = k' := by
  intro t
  induction t with
  | ident => intro _ k k' v h h'; simp [read] at h h'; omega
  | shift o => intro _ k k' v h h'; simp [read] at h h'; omega
  | func f => intro hi; simp [invertible] at hi
  | cont c => intro hi; simp [invertible] at hi
  | assoc l => intro hi; simp [invertible] at hi
  | acc inv ks =>
    intro _ k k' v h h'
    simp only [read] at h h'
    split at h <;> split at h' <;> simp at h h'
    rename_i hk hk'
    have : ks.idxOf k = ks.idxOf k' := by omega
    exact (List.idxOf_inj hk).mp this
  | comp r1 r2 m1 m2 ih1 ih2 =>
    intro hi k k' v h h'
    simp only [invertible, Bool.and_eq_true] at hi
    simp only [read, Option.bind_eq_some_iff] at h h'
    obtain ⟨a, h1, h2⟩ := h
    obtain ⟨a', h1', h2'⟩ := h'
    have := ih2 hi.2 _ _ _ h2 h2'
    subst this
    exact ih1 hi.1 _ _ _ h1 h1'
  | filt p m ih => intro hi; exact ih hi

/-! ### Properties -/

/-- **C107**: a value obtained from a map is the one the map stands for afterwards; keys that had a
value before keep it. -/
theorem tree_get {t : MapTree} {k v : Int} {t' : MapTree} (h : t.get k = some (v, t')) :
    t'.read k = some v ∧ ∀ k' u, t.read k' = some u → t'.read k' = some u :=
  ⟨(get_spec _ _ _ _ h).2, (get_spec _ _ _ _ h).1.read⟩

/-- **C107**: reading a key that has a value is possible, gives it, and changes nothing. -/
theorem tree_get_pure {t : MapTree} (ok : t.Ok) {k v : Int} (h : t.read k = some v) :
    t.get k = some (v, t) := get_of_read t k v ok h

/-- **C107**: `invert` finds exactly the key with the given value. -/
theorem tree_invert {t : MapTree} (wf : t.Wf) (ok : t.Ok) (hi : t.invertible = true) (k v : Int) :
    t.invert v = some k ↔ t.read k = some v :=
  ⟨read_of_invert t k v wf, invert_of_read t k v ok hi⟩

/-- What `put` does. -/
structure Put (t : MapTree) (k v : Int) (t' : MapTree) : Prop where
  same : Same t t'
  wf : t'.Wf
  here : t'.read k = some v
  stored : ∃ c, t'.cell k = some c
  else_ : ∀ k' u, t.read k' = some u →
    t'.read k' = some (if t'.cell k' = t'.cell k then v else u) ∧ t'.cell k' = t.cell k'

theorem put_spec : ∀ (t : MapTree) (k v : Int) (t' : MapTree), t.Wf → t.put k v = some t' →
    Put t k v t' := by
  intro t
  induction t with
  | ident => intro k v t' _ h; simp [put] at h
  | shift o => intro k v t' _ h; simp [put] at h
  | func f => intro k v t' _ h; simp [put] at h
  | acc inv ks => intro k v t' _ h; simp [put] at h
  | cont c =>
    intro k v t' _ h
    simp only [put] at h
    split at h
    · rename_i hk
      simp only [Option.some.injEq] at h
      subst h
      have hlt : k.toNat < c.length := by omega
      refine ⟨by simp [Same], trivial, by simp [read, hk.1, hlt], ⟨k, by simp [cell, hk]⟩, ?_⟩
      intro k' u h
      simp only [read] at h ⊢
      split at h
      · rename_i hk'
        obtain ⟨hl', e⟩ := List.getElem?_eq_some_iff.mp h
        have hk'l : k' < c.length := by omega
        simp only [cell, List.length_set, hk, hk', hk'l, and_self, if_true, Option.some.injEq, and_true]
        by_cases e2 : k' = k
        · subst e2; simp [hlt]
        · rw [if_neg e2, List.getElem?_set_ne (by omega)]; exact h
      · simp at h
    · simp at h
  | assoc l =>
    intro k v t' wf h
    have wf : (l.map Prod.fst).Nodup := wf
    simp only [put] at h
    split at h
    · rename_i hany
      simp only [Option.some.injEq] at h
      subst h
      have hfst : (l.map fun p => if p.1 = k then (k, v) else p).map Prod.fst = l.map Prod.fst := by
        rw [List.map_map]
        apply List.map_congr_left
        intro p _
        simp only [Function.comp]
        split <;> simp_all
      have hfind : ∀ k', ((l.map fun p => if p.1 = k then (k, v) else p).find? (fun p => p.1 = k')).map Prod.snd
          = if k' = k then some v else (l.find? (fun p => p.1 = k')).map Prod.snd := by
        intro k'
        rw [List.find?_map]
        by_cases e : k' = k
        · subst e
          rw [if_pos rfl]
          have hcomp : ((fun p : Int × Int => decide (p.1 = k')) ∘ fun p => if p.1 = k' then (k', v) else p)
              = fun p => decide (p.1 = k') := by
            funext p; simp only [Function.comp]; split <;> simp_all
          rw [hcomp]
          obtain ⟨p, hp, hpk⟩ := List.any_eq_true.mp hany
          cases hf : l.find? (fun p => decide (p.1 = k')) with
          | none => exact absurd hpk (List.find?_eq_none.mp hf p hp)
          | some q =>
            have := List.find?_some hf
            simp at this
            simp [this]
        · rw [if_neg e]
          have hcomp : ((fun p : Int × Int => decide (p.1 = k')) ∘ fun p => if p.1 = k then (k, v) else p)
              = fun p => decide (p.1 = k') := by
            funext p; simp only [Function.comp]; split
            · rename_i h1
              have : ¬ p.1 = k' := by rw [h1]; exact fun h => e h.symm
              simp [this]; exact fun h => e h.symm
            · rfl
          rw [hcomp]
          cases hf : l.find? (fun p => decide (p.1 = k')) with
          | none => rfl
          | some q =>
            have := List.find?_some hf
            simp at this
            have hq : ¬ q.1 = k := by rw [this]; exact e
            simp [hq]
      refine ⟨trivial, ?_, ?_, ⟨k, rfl⟩, ?_⟩
      · show (List.map Prod.fst _).Nodup
        rw [hfst]; exact wf
      · simp only [read, hfind, if_true, Option.getD_some]
      · intro k' u h
        simp only [read, Option.some.injEq] at h
        refine ⟨?_, rfl⟩
        simp only [read, cell, hfind, Option.some.injEq]
        split
        · rfl
        · exact h
    · rename_i hany
      simp only [Option.some.injEq] at h
      subst h
      have hnot : ∀ p ∈ l, ¬ p.1 = k := by
        intro p hp e
        exact hany (List.any_eq_true.mpr ⟨p, hp, by simpa using e⟩)
      have hfind : ∀ k', ((l ++ [(k, v)]).find? (fun p => p.1 = k')).map Prod.snd
          = if k' = k then some v else (l.find? (fun p => p.1 = k')).map Prod.snd := by
        intro k'
        rw [List.find?_append]
        by_cases e : k' = k
        · subst e
          have : l.find? (fun p => decide (p.1 = k')) = none := by
            rw [List.find?_eq_none]; intro p hp; simpa using hnot p hp
          simp [this]
        · have : ¬ k = k' := fun h => e h.symm
          simp [this, e]
      refine ⟨trivial, ?_, ?_, ⟨k, rfl⟩, ?_⟩
      · show (List.map Prod.fst _).Nodup
        rw [List.map_append, List.nodup_append]
        refine ⟨wf, by simp, ?_⟩
        intro a ha b hb
        simp at hb
        subst hb
        obtain ⟨p, hp, rfl⟩ := List.mem_map.mp ha
        exact hnot p hp
      · simp only [read, hfind, if_true, Option.getD_some]
      · intro k' u h
        simp only [read, Option.some.injEq] at h
        refine ⟨?_, rfl⟩
        simp only [read, cell, hfind, Option.some.injEq]
        split
        · rfl
        · exact h
  | comp r1 r2 m1 m2 ih1 ih2 =>
    intro k v t' wf h
    simp only [put] at h
    by_cases hw : m2.writable = true
    · rw [if_pos hw] at h
      simp only [Option.bind_eq_some_iff] at h
      obtain ⟨⟨a, m1'⟩, h1, m2', h2, h⟩ := h
      simp only [Option.some.injEq] at h
      subst h
      obtain ⟨e1, q1⟩ := get_spec _ _ _ _ h1
      have P := ih2 _ _ _ wf.2 h2
      have hw' : m2'.writable = true := P.same.flags.1 ▸ hw
      have hcell : (MapTree.comp r1 r2 m1' m2').cell k = m2'.cell a := by simp [cell, hw', q1]
      refine ⟨⟨rfl, rfl, e1.same, P.same⟩, ⟨e1.wf wf.1, P.wf⟩, by simp [read, q1, P.here], ?_, ?_⟩
      · rw [hcell]; exact P.stored
      · intro k' u h
        simp only [read, Option.bind_eq_some_iff] at h
        obtain ⟨b, hb, hu⟩ := h
        have hb' := e1.read _ _ hb
        have hc' : (MapTree.comp r1 r2 m1' m2').cell k' = m2'.cell b := by simp [cell, hw', hb']
        rw [hcell, hc']
        refine ⟨?_, ?_⟩
        · simp only [read, hb', Option.bind_some]; exact (P.else_ _ _ hu).1
        · simp only [cell, hw, if_true, hb, Option.bind_some]; exact (P.else_ _ _ hu).2
    · rw [if_neg hw] at h
      simp only [Option.bind_eq_some_iff] at h
      obtain ⟨w, h2, m1', h1, h⟩ := h
      simp only [Option.some.injEq] at h
      subst h
      have hr := read_of_invert _ _ _ wf.2 h2
      have P := ih1 _ _ _ wf.1 h1
      have hc : ∀ k', (MapTree.comp r1 r2 m1' m2).cell k' = m1'.cell k' := by
        intro k'; simp [cell, hw]
      refine ⟨⟨rfl, rfl, P.same, Same.refl _⟩, ⟨P.wf, wf.2⟩, by simp [read, P.here, hr], ?_, ?_⟩
      · rw [hc]; exact P.stored
      · intro k' u h
        simp only [read, Option.bind_eq_some_iff] at h
        obtain ⟨b, hb, hu⟩ := h
        obtain ⟨p1, p2⟩ := P.else_ _ _ hb
        rw [hc, hc]
        refine ⟨?_, ?_⟩
        · simp only [read, p1, Option.bind_some]
          split
          · exact hr
          · exact hu
        · simp only [cell, hw]; exact p2
  | filt p m ih =>
    intro k v t' wf h
    simp only [put] at h
    split at h
    · simp at h
    · simp only [Option.bind_eq_some_iff] at h
      obtain ⟨m', h1, h⟩ := h
      simp only [Option.some.injEq] at h
      subst h
      have P := ih _ _ _ wf h1
      exact ⟨⟨rfl, P.same⟩, P.wf, P.here, P.stored, P.else_⟩

/-- **C107**: after writing a value to a key, the key has it, and so have exactly the keys stored at
the same place; all other keys keep their values. -/
theorem tree_put {t : MapTree} (wf : t.Wf) {k v : Int} {t' : MapTree} (h : t.put k v = some t') :
    t'.read k = some v ∧ ∀ k' u, t.read k' = some u →
      t'.read k' = some (if t'.cell k' = t'.cell k then v else u) :=
  ⟨(put_spec _ _ _ _ wf h).here, fun k' u hu => ((put_spec _ _ _ _ wf h).else_ k' u hu).1⟩

/-- The values a map can take: what its last invertible parts take. -/
def Accepts : MapTree → Int → Prop
  | .comp _ _ m1 m2, v => if m2.writable then m2.Accepts v else ∃ w, m2.read w = some v ∧ m1.Accepts w
  | .filt _ m, v => m.Accepts v
  | _, _ => True

/-- **C107**: writing is possible at every key that has a value and a place it is stored at, for
every value that the parts of the map to be inverted can take. -/
theorem tree_put_defined : ∀ {t : MapTree}, t.Ok → t.writable = true → ∀ {k u c v : Int},
    t.read k = some u → t.cell k = some c → t.Accepts v → ∃ t', t.put k v = some t' := by
  intro t
  induction t with
  | ident => intro _ hw; simp [writable] at hw
  | shift o => intro _ hw; simp [writable] at hw
  | func f => intro _ hw; simp [writable] at hw
  | acc inv ks => intro _ hw; simp [writable] at hw
  | cont c =>
    intro _ _ k u d v _ hc _
    simp only [cell] at hc
    split at hc
    · rename_i hk; exact ⟨_, by simp [put, hk]; rfl⟩
    · simp at hc
  | assoc l =>
    intro _ _ k u c v _ _ _
    simp only [put]
    split
    · exact ⟨_, rfl⟩
    · exact ⟨_, rfl⟩
  | comp r1 r2 m1 m2 ih1 ih2 =>
    intro ok hw k u c v hr hc ha
    simp only [read, Option.bind_eq_some_iff] at hr
    obtain ⟨a, h1, h2⟩ := hr
    simp only [put]
    by_cases hw2 : m2.writable = true
    · simp only [cell, hw2, if_true, h1, Option.bind_some] at hc
      simp only [Accepts, hw2, if_true] at ha
      obtain ⟨m2', hm2⟩ := ih2 ok.2 hw2 h2 hc ha
      exact ⟨.comp r1 r2 m1 m2', by simp [hw2, get_of_read m1 k a ok.1 h1, hm2]⟩
    · simp only [cell, hw2] at hc
      simp only [Accepts, hw2] at ha
      simp only [writable, hw2, Bool.false_or, Bool.and_eq_true] at hw
      obtain ⟨w, hw', ha⟩ := ha
      obtain ⟨m1', hm1⟩ := ih1 ok.1 hw.1 h1 hc ha
      exact ⟨.comp r1 r2 m1' m2, by simp [hw2, invert_of_read m2 w v ok.2 hw.2 hw', hm1]⟩
  | filt p m ih =>
    intro ok hw k u c v hr hc ha
    obtain ⟨m', hm⟩ := ih ok.2 hw hr hc ha
    exact ⟨.filt p m', by simp [put, ok.1, hm]⟩

theorem getAll_spec : ∀ (l : List (Int × Int)) (m : MapTree) (r : List (Int × Int)) (m' : MapTree),
    m.getAll l = some (r, m') → Ext m m' ∧ r.map Prod.fst = l.map Prod.fst ∧
      ∀ p ∈ r, ∃ a, (p.1, a) ∈ l ∧ m'.read a = some p.2 := by
  intro l
  induction l with
  | nil =>
    intro m r m' h
    simp only [getAll, Option.some.injEq, Prod.mk.injEq] at h
    obtain ⟨rfl, rfl⟩ := h
    exact ⟨Ext.refl _, rfl, by simp⟩
  | cons p ps ih =>
    intro m r m' h
    simp only [getAll, Option.bind_eq_some_iff] at h
    obtain ⟨⟨v, m1⟩, h1, ⟨r1, m2⟩, h2, h⟩ := h
    simp only [Option.some.injEq, Prod.mk.injEq] at h
    obtain ⟨rfl, rfl⟩ := h
    obtain ⟨e1, q1⟩ := get_spec _ _ _ _ h1
    obtain ⟨e2, q2, q3⟩ := ih _ _ _ h2
    refine ⟨e1.trans e2, by simp [q2], ?_⟩
    intro x hx
    rcases List.mem_cons.mp hx with rfl | hx
    · exact ⟨p.2, by simp, e2.read _ _ q1⟩
    · obtain ⟨a, ha, hr⟩ := q3 x hx
      exact ⟨a, by simp [ha], hr⟩

theorem invertAll_spec (m : MapTree) (wf : m.Wf) : ∀ (l r : List (Int × Int)),
    m.invertAll l = some r →
      (∀ p ∈ r, ∃ a, m.read p.1 = some a ∧ (a, p.2) ∈ l) ∧
      (∀ p ∈ l, ∃ k, m.read k = some p.1 ∧ (k, p.2) ∈ r) ∧
      ((l.map Prod.fst).Nodup → (r.map Prod.fst).Nodup) := by
  intro l
  induction l with
  | nil =>
    intro r h
    simp only [invertAll, Option.some.injEq] at h
    subst h
    simp
  | cons p ps ih =>
    intro r h
    simp only [invertAll, Option.bind_eq_some_iff] at h
    obtain ⟨k, h1, r1, h2, h⟩ := h
    simp only [Option.some.injEq] at h
    subst h
    obtain ⟨q1, q2, q3⟩ := ih _ h2
    have hk := read_of_invert _ _ _ wf h1
    refine ⟨?_, ?_, ?_⟩
    · intro x hx
      rcases List.mem_cons.mp hx with rfl | hx
      · exact ⟨p.1, hk, by simp⟩
      · obtain ⟨a, ha, hm⟩ := q1 x hx
        exact ⟨a, ha, by simp [hm]⟩
    · intro x hx
      rcases List.mem_cons.mp hx with rfl | hx
      · exact ⟨k, hk, by simp⟩
      · obtain ⟨a, ha, hm⟩ := q2 x hx
        exact ⟨a, ha, by simp [hm]⟩
    · intro hn
      simp only [List.map_cons, List.nodup_cons] at hn ⊢
      refine ⟨?_, q3 hn.2⟩
      intro hmem
      obtain ⟨x, hx, hxk⟩ := List.mem_map.mp hmem
      obtain ⟨a, ha, hm⟩ := q1 x hx
      rw [hxk, hk] at ha
      apply hn.1
      rw [Option.some.inj ha]
      exact List.mem_map.mpr ⟨_, hm, rfl⟩

theorem range_spec : ∀ (t : MapTree) (l : List (Int × Int)) (t' : MapTree), t.Wf →
    t.range = some (l, t') → Ext t t' ∧ (∀ p ∈ l, t'.read p.1 = some p.2) ∧
      (l.map Prod.fst).Nodup ∧ ∀ k, k ∈ l.map Prod.fst ↔ t'.Dom k := by
  intro t
  induction t with
  | ident => intro l t' _ h; simp [range] at h
  | shift o => intro l t' _ h; simp [range] at h
  | func f => intro l t' _ h; simp [range] at h
  | cont c =>
    intro l t' _ h
    simp only [range, Option.some.injEq, Prod.mk.injEq] at h
    obtain ⟨rfl, rfl⟩ := h
    refine ⟨Ext.refl _, ?_, ?_, ?_⟩
    · intro p hp
      obtain ⟨i, hi, rfl⟩ := List.mem_map.mp hp
      have hi := List.mem_range.mp hi
      simp [read, List.getD_eq_getElem?_getD, hi]
    · rw [List.map_map]
      exact List.Nodup.map (fun a b h => by simp only [Function.comp] at h; omega) List.nodup_range
    · intro k
      simp only [List.map_map, List.mem_map, List.mem_range, Function.comp, Dom]
      constructor
      · rintro ⟨i, hi, rfl⟩; omega
      · rintro ⟨h0, h1⟩; exact ⟨k.toNat, by omega, by omega⟩
  | assoc l0 =>
    intro l t' wf h
    simp only [range, Option.some.injEq, Prod.mk.injEq] at h
    obtain ⟨rfl, rfl⟩ := h
    have wf : (l0.map Prod.fst).Nodup := wf
    refine ⟨Ext.refl _, ?_, wf, fun k => Iff.rfl⟩
    intro p hp
    cases hf : l0.find? (fun q => decide (q.1 = p.1)) with
    | none =>
      have := List.find?_eq_none.mp hf p hp
      simp at this
    | some q =>
      have hq : q.1 = p.1 := by simpa using List.find?_some hf
      have hmem := List.mem_of_find?_eq_some hf
      have : q = p := List.inj_on_of_nodup_map wf hmem hp hq
      subst this
      simp [read, hf]
  | acc inv ks =>
    intro l t' wf h
    simp only [range, Option.some.injEq, Prod.mk.injEq] at h
    obtain ⟨rfl, rfl⟩ := h
    have wf : ks.Nodup := wf
    have hkeys : ((List.range ks.length).map (fun i : Nat => (ks.getD i 0, (i : Int)))).map Prod.fst = ks := by
      rw [List.map_map]
      apply List.ext_getElem
      · simp
      · intro i h1 h2
        simp [List.getD_eq_getElem?_getD, h2]
    refine ⟨Ext.refl _, ?_, ?_, ?_⟩
    · intro p hp
      obtain ⟨i, hi, rfl⟩ := List.mem_map.mp hp
      have hi := List.mem_range.mp hi
      have e : ks.getD i 0 = ks[i] := by simp [List.getD_eq_getElem?_getD, hi]
      simp only [read, e, List.getElem_mem, if_true, List.Nodup.idxOf_getElem wf]
    · rw [hkeys]; exact wf
    · intro k; rw [hkeys]; rfl
  | comp r1 r2 m1 m2 ih1 ih2 =>
    intro l t' wf h
    simp only [range] at h
    by_cases hit : m1.iterable = true
    · rw [if_pos hit] at h
      cases r2 with
      | true => simp at h
      | false =>
        simp only [Bool.false_eq_true, if_false, Option.bind_eq_some_iff] at h
        obtain ⟨⟨l1, m1'⟩, h1, ⟨l2, m2'⟩, h2, h⟩ := h
        simp only [Option.some.injEq, Prod.mk.injEq] at h
        obtain ⟨rfl, rfl⟩ := h
        obtain ⟨e1, q1, n1, d1⟩ := ih1 _ _ wf.1 h1
        obtain ⟨e2, f2, q2⟩ := getAll_spec _ _ _ _ h2
        have hit' : m1'.iterable = true := e1.same.flags.2.2.1 ▸ hit
        refine ⟨e1.comp e2, ?_, by rw [f2]; exact n1, ?_⟩
        · intro p hp
          obtain ⟨a, ha, hr⟩ := q2 p hp
          simp only [read, q1 _ ha, Option.bind_some, hr]
        · intro k; rw [f2, d1]; simp only [Dom, hit', if_true]
    · rw [if_neg hit] at h
      by_cases hi : (m1.invertible && m2.iterable) = true
      · rw [if_pos hi] at h
        simp only [Bool.and_eq_true] at hi
        cases r1 with
        | true => simp at h
        | false =>
          simp only [Bool.false_eq_true, if_false, Option.bind_eq_some_iff] at h
          obtain ⟨⟨l1, m2'⟩, h1, r, h2, h⟩ := h
          simp only [Option.some.injEq, Prod.mk.injEq] at h
          obtain ⟨rfl, rfl⟩ := h
          obtain ⟨e2, q2, n2, d2⟩ := ih2 _ _ wf.2 h1
          obtain ⟨f1, f2, f3⟩ := invertAll_spec m1 wf.1 _ _ h2
          refine ⟨(Ext.refl m1).comp e2, ?_, f3 n2, ?_⟩
          · intro p hp
            obtain ⟨a, ha, hm⟩ := f1 p hp
            simp only [read, ha, Option.bind_some, q2 _ hm]
          · intro k
            simp only [Dom, hit]
            constructor
            · intro hk
              obtain ⟨p, hp, rfl⟩ := List.mem_map.mp hk
              obtain ⟨a, ha, hm⟩ := f1 p hp
              exact ⟨a, ha, (d2 a).mp (List.mem_map.mpr ⟨_, hm, rfl⟩)⟩
            · rintro ⟨a, ha, hd⟩
              obtain ⟨p, hp, rfl⟩ := List.mem_map.mp ((d2 a).mpr hd)
              obtain ⟨k', hk', hm⟩ := f2 p hp
              have := read_inj m1 hi.1 _ _ _ ha hk'
              subst this
              exact List.mem_map.mpr ⟨_, hm, rfl⟩
      · rw [if_neg hi] at h; simp at h
  | filt p m ih =>
    intro l t' wf h
    simp only [range, Option.bind_eq_some_iff] at h
    obtain ⟨⟨l1, m'⟩, h1, h⟩ := h
    simp only [Option.some.injEq, Prod.mk.injEq] at h
    obtain ⟨rfl, rfl⟩ := h
    obtain ⟨e1, q1, n1, d1⟩ := ih _ _ wf h1
    refine ⟨e1.filt, ?_, ?_, ?_⟩
    · intro x hx
      exact q1 x (List.mem_filter.mp hx).1
    · exact List.Nodup.sublist (List.Sublist.map _ List.filter_sublist) n1
    · intro k
      simp only [Dom, ← d1]
      constructor
      · intro hk
        obtain ⟨x, hx, rfl⟩ := List.mem_map.mp hk
        obtain ⟨hx, hpx⟩ := List.mem_filter.mp hx
        exact ⟨List.mem_map.mpr ⟨x, hx, rfl⟩, x.2, q1 x hx, hpx⟩
      · rintro ⟨hk, v, hv, hp⟩
        obtain ⟨x, hx, rfl⟩ := List.mem_map.mp hk
        have := (q1 x hx).symm.trans hv
        rw [← Option.some.inj this] at hp
        exact List.mem_map.mpr ⟨x, List.mem_filter.mpr ⟨hx, hp⟩, rfl⟩

/-- **C107**: a traversal meets every key of the domain once, with the value the map has there, and
changes no value. -/
theorem tree_range {t : MapTree} (wf : t.Wf) {l : List (Int × Int)} {t' : MapTree}
    (h : t.range = some (l, t')) :
    (∀ p ∈ l, t'.read p.1 = some p.2) ∧ (l.map Prod.fst).Nodup ∧
      (∀ k, k ∈ l.map Prod.fst ↔ t'.Dom k) ∧ ∀ k u, t.read k = some u → t'.read k = some u := by
  obtain ⟨e, a, b, c⟩ := range_spec _ _ _ wf h
  exact ⟨a, b, c, e.read⟩

/-- A use of a map. -/
inductive Use where
  | get (k : Int)
  | put (k v : Int)
  | traverse

/-- The map after a history of uses. -/
def run : List Use → MapTree → Option MapTree
  | [], t => some t
  | .get k :: us, t => (t.get k).bind fun r => run us r.2
  | .put k v :: us, t => (t.put k v).bind (run us)
  | .traverse :: us, t => t.range.bind fun r => run us r.2

/-- The value of a key stored at the place `c` (if any) after a history, when it was `u` before. -/
def lastWrite (place : Int → Option Int) (c : Option Int) : List Use → Int → Int
  | [], u => u
  | .put k v :: us, u => lastWrite place c us (if c = place k then v else u)
  | _ :: us, u => lastWrite place c us u

theorem run_spec : ∀ (us : List Use) (t t' : MapTree), t.Wf → run us t = some t' →
    Same t t' ∧ t'.Wf ∧ ∀ k u, t.read k = some u →
      t'.cell k = t.cell k ∧ t'.read k = some (lastWrite t'.cell (t'.cell k) us u) := by
  intro us
  induction us with
  | nil =>
    intro t t' wf h
    simp only [run, Option.some.injEq] at h
    subst h
    exact ⟨Same.refl _, wf, fun k u h => ⟨rfl, h⟩⟩
  | cons x us ih =>
    intro t t' wf h
    cases x with
    | get k =>
      simp only [run, Option.bind_eq_some_iff] at h
      obtain ⟨⟨v, t1⟩, h1, h2⟩ := h
      obtain ⟨e, _⟩ := get_spec _ _ _ _ h1
      obtain ⟨s, w, r⟩ := ih _ _ (e.wf wf) h2
      refine ⟨e.same.trans s, w, fun k' u hu => ?_⟩
      obtain ⟨a, b⟩ := r k' u (e.read _ _ hu)
      exact ⟨a.trans (e.cell _ _ hu), b⟩
    | traverse =>
      simp only [run, Option.bind_eq_some_iff] at h
      obtain ⟨⟨v, t1⟩, h1, h2⟩ := h
      obtain ⟨e, _⟩ := range_spec _ _ _ wf h1
      obtain ⟨s, w, r⟩ := ih _ _ (e.wf wf) h2
      refine ⟨e.same.trans s, w, fun k' u hu => ?_⟩
      obtain ⟨a, b⟩ := r k' u (e.read _ _ hu)
      exact ⟨a.trans (e.cell _ _ hu), b⟩
    | put k v =>
      simp only [run, Option.bind_eq_some_iff] at h
      obtain ⟨t1, h1, h2⟩ := h
      have P := put_spec _ _ _ _ wf h1
      obtain ⟨s, w, r⟩ := ih _ _ P.wf h2
      refine ⟨P.same.trans s, w, fun k' u hu => ?_⟩
      obtain ⟨p1, p2⟩ := P.else_ _ _ hu
      obtain ⟨a, b⟩ := r k' _ p1
      obtain ⟨a0, _⟩ := r k _ P.here
      refine ⟨a.trans p2, ?_⟩
      rw [b, lastWrite, a, a0]

/-- **C107**: over a whole history of reads, writes and traversals, a key that had a value at the
start has in the end the value last written to a key stored at the same place, or its first one. -/
theorem tree_history {us : List Use} {t t' : MapTree} (wf : t.Wf) (h : run us t = some t')
    {k u : Int} (hu : t.read k = some u) :
    t'.read k = some (lastWrite t'.cell (t'.cell k) us u) := ((run_spec us t t' wf h).2.2 k u hu).2

/-! ### Cases -/

/-- Keys numbered from 1 on, numbers kept in a vector that holds them doubled and shifted. -/
def sample : MapTree :=
  .filt (fun v => decide (v ≠ 0)) (.comp false false (.comp false true (.shift 1) (.cont [5, 2, 7])) (.shift 2))

example : sample.Wf ∧ sample.Ok ∧ sample.writable = true ∧ sample.iterable = true :=
  ⟨⟨⟨trivial, trivial⟩, trivial⟩, ⟨rfl, ⟨trivial, trivial⟩, trivial⟩, rfl, rfl⟩

example : sample.read 1 = some 3 ∧ sample.cell 1 = some 0 ∧
    (sample.range.map fun r => r.1) = some [(1, 3), (3, 5)] ∧
    ((sample.put 2 9).bind fun t => t.read 2) = some 9 := by decide +kernel

/-- Two keys stored at one place: writing one writes the other. -/
example : ((MapTree.comp false true (.func fun k => k / 2) (.cont [1, 2])).put 3 9).bind
    (fun t => t.read 2) = some 9 := by decide +kernel

/-- An accounting map in front of a vector: a new key gets the next number. -/
example : run [.put 40 7, .put 30 8, .get 40, .traverse]
    (.comp false false (.acc true []) (.cont [0, 0])) =
    some (.comp false false (.acc true [40, 30]) (.cont [7, 8])) := rfl

/-- What `composite_map` cannot do: the outer map is held by reference, and the map cannot be
traversed although its traits say it can. -/
theorem tree_range_ref_fails (r1 : Bool) (m1 m2 : MapTree) (h : m1.iterable = true) :
    (MapTree.comp r1 true m1 m2).iterable = true ∧ (MapTree.comp r1 true m1 m2).range = none := by
  simp [iterable, range, h]

/-- Nor can a filtered map that is filtered again be read, written or inverted, whatever its traits
say. -/
theorem tree_filt_filt_fails (p q : Int → Bool) (m : MapTree) (k v : Int) :
    (MapTree.filt p (.filt q m)).get k = none ∧ (MapTree.filt p (.filt q m)).put k v = none ∧
      (MapTree.filt p (.filt q m)).invert v = none := by
  simp [get, put, invert, isFilt]

end Actl.Maps.MapTree
