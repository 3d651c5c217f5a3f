import Verif.Props.GraphAgree
import Mathlib.Data.Finset.Card
import Mathlib.Order.Interval.Finset.Defs
import Mathlib.Data.Int.Interval

/-!
C154: there are as many two-edge-connected components as connected components and bridges together.
-/

namespace Actl.Traversal

open Relation

/-! ### Numbers of classes -/

theorem card_image_le_of_kernel {V α β : Type} [DecidableEq α] [DecidableEq β] (S : Finset V) (f : V → α) (g : V → β)
    (h : ∀ x ∈ S, ∀ y ∈ S, g x = g y → f x = f y) : (S.image f).card ≤ (S.image g).card := by
  classical
  rcases S.eq_empty_or_nonempty with rfl | ⟨z, hz⟩
  · simp
  let F : β → α := fun b => if hb : ∃ x ∈ S, g x = b then f hb.choose else f z
  have hsub : S.image f ⊆ (S.image g).image F := by
    intro a ha
    obtain ⟨x, hx, rfl⟩ := Finset.mem_image.mp ha
    have hb : ∃ y ∈ S, g y = g x := ⟨x, hx, rfl⟩
    refine Finset.mem_image.mpr ⟨g x, Finset.mem_image_of_mem g hx, ?_⟩
    simp only [F, dif_pos hb]
    exact h _ hb.choose_spec.1 _ hx hb.choose_spec.2
  exact (Finset.card_le_card hsub).trans Finset.card_image_le

theorem card_image_eq_of_kernel {V α β : Type} [DecidableEq α] [DecidableEq β] (S : Finset V) (f : V → α) (g : V → β)
    (h : ∀ x ∈ S, ∀ y ∈ S, (g x = g y ↔ f x = f y)) : (S.image f).card = (S.image g).card :=
  Nat.le_antisymm (card_image_le_of_kernel S f g fun x hx y hy => (h x hx y hy).mp)
    (card_image_le_of_kernel S g f fun x hx y hy => (h x hx y hy).mpr)

/-- Joining two different classes makes one class less. -/
theorem card_join {V α β : Type} [DecidableEq α] [DecidableEq β] (S : Finset V) (f : V → α) (g : V → β) (u v : V)
    (hu : u ∈ S) (hv : v ∈ S) (huv : f u ≠ f v)
    (h : ∀ x ∈ S, ∀ y ∈ S, (g x = g y ↔ f x = f y ∨ (f x = f u ∧ f v = f y) ∨ (f x = f v ∧ f u = f y))) :
    (S.image f).card = (S.image g).card + 1 := by
  have h1 : (S.image fun x => if f x = f u then f v else f x).card = (S.image g).card := by
    refine card_image_eq_of_kernel S _ g fun x hx y hy => ?_
    rw [h x hx y hy]
    by_cases hx' : f x = f u <;> by_cases hy' : f y = f u
    · rw [if_pos hx', if_pos hy', hx', hy']
      simp
    · rw [if_pos hx', if_neg hy', hx']
      constructor
      · rintro (h | ⟨-, h⟩ | ⟨h, -⟩)
        · exact absurd h.symm hy'
        · exact h
        · exact absurd h huv
      · exact fun h => Or.inr (Or.inl ⟨rfl, h⟩)
    · rw [if_neg hx', if_pos hy', hy']
      constructor
      · rintro (h | ⟨h, -⟩ | ⟨h, -⟩)
        · exact absurd h hx'
        · exact absurd h hx'
        · exact h
      · exact fun h => Or.inr (Or.inr ⟨h, rfl⟩)
    · rw [if_neg hx', if_neg hy']
      constructor
      · rintro (h | ⟨h, -⟩ | ⟨-, h⟩)
        · exact h
        · exact absurd h hx'
        · exact absurd h.symm hy'
      · exact Or.inl
  have h2 : (S.image fun x => if f x = f u then f v else f x) = (S.image f).erase (f u) := by
    ext a
    simp only [Finset.mem_image, Finset.mem_erase]
    constructor
    · rintro ⟨x, hx, rfl⟩
      split
      · exact ⟨huv.symm, v, hv, rfl⟩
      · rename_i hn
        exact ⟨hn, x, hx, rfl⟩
    · rintro ⟨hn, x, hx, rfl⟩
      exact ⟨x, hx, if_neg hn⟩
  have h3 := Finset.mem_image_of_mem f hu
  rw [← h1, h2, Finset.card_erase_add_one h3]

/-! ### Removal of several edges -/

variable {V E : Type} [DecidableEq V] {G : Graph V E} {rev : E → E}

/-- There is an edge other than those in `B`. -/
def Graph.StepOff (G : Graph V E) (rev : E → E) (B : List E) (x y : V) : Prop :=
  x ∈ G.vertices ∧ ∃ f ∈ G.out x, G.tgt f = y ∧ f ∉ B ∧ rev f ∉ B

/-- Connected by edges other than those in `B`. -/
def Graph.ConnOff (G : Graph V E) (rev : E → E) (B : List E) : V → V → Prop := EqvGen (G.StepOff rev B)

theorem connOff_mono {B B' : List E} (h : ∀ e ∈ B, e ∈ B') {x y : V} (hxy : G.ConnOff rev B' x y) : G.ConnOff rev B x y :=
  EqvGen.mono (fun _ _ ⟨h1, f, h2, h3, h4, h5⟩ => ⟨h1, f, h2, h3, fun hh => h4 (h _ hh), fun hh => h5 (h _ hh)⟩) _ _ hxy

/-- Putting an edge back connects its ends, and nothing else. -/
theorem connOff_cons (hG : G.WF) (hU : G.Undirected rev) {B : List E} {b : E} {u : V} (hu : u ∈ G.vertices) (hb : b ∈ G.out u)
    (h1 : b ∉ B) (h2 : rev b ∉ B) (x y : V) :
    G.ConnOff rev B x y ↔ G.ConnOff rev (b :: B) x y ∨ (G.ConnOff rev (b :: B) x u ∧ G.ConnOff rev (b :: B) (G.tgt b) y) ∨
      (G.ConnOff rev (b :: B) x (G.tgt b) ∧ G.ConnOff rev (b :: B) u y) := by
  have up : ∀ {x y}, G.ConnOff rev (b :: B) x y → G.ConnOff rev B x y := connOff_mono (fun e he => List.mem_cons_of_mem b he)
  have huv : G.ConnOff rev B u (G.tgt b) := .rel _ _ ⟨hu, b, hb, rfl, h1, h2⟩
  constructor
  · intro h
    induction h with
    | rel x y h =>
      obtain ⟨hx, f, hf, rfl, h3, h4⟩ := h
      by_cases hfb : f = b
      · subst hfb
        rw [← hG.src x hx f hf, hG.src u hu f hb]
        exact Or.inr (Or.inl ⟨.refl _, .refl _⟩)
      · by_cases hfr : rev f = b
        · have hf' : f = rev b := by rw [← hfr, hU.invol]
          have hx' : x = G.tgt b := by rw [← hG.src x hx f hf, hf', hG.src _ (hG.tgt u hu b hb) _ (hU.mem_rev u hu b hb)]
          have ht : G.tgt f = u := by rw [hf', hU.tgt_rev u hu b hb]
          rw [hx', ht]
          exact Or.inr (Or.inr ⟨.refl _, .refl _⟩)
        · exact Or.inl (.rel _ _ ⟨hx, f, hf, rfl, by simp [hfb, h3], by simp [hfr, h4]⟩)
    | refl x => exact Or.inl (.refl _)
    | symm x y _ ih =>
      rcases ih with i | ⟨i, j⟩ | ⟨i, j⟩
      · exact Or.inl (.symm _ _ i)
      · exact Or.inr (Or.inr ⟨.symm _ _ j, .symm _ _ i⟩)
      · exact Or.inr (Or.inl ⟨.symm _ _ j, .symm _ _ i⟩)
    | trans x y z _ _ ih1 ih2 =>
      rcases ih1 with i | ⟨i, j⟩ | ⟨i, j⟩ <;> rcases ih2 with k | ⟨k, m⟩ | ⟨k, m⟩
      · exact Or.inl (.trans _ _ _ i k)
      · exact Or.inr (Or.inl ⟨.trans _ _ _ i k, m⟩)
      · exact Or.inr (Or.inr ⟨.trans _ _ _ i k, m⟩)
      · exact Or.inr (Or.inl ⟨i, .trans _ _ _ j k⟩)
      · exact Or.inr (Or.inl ⟨i, m⟩)
      · exact Or.inl (.trans _ _ _ i m)
      · exact Or.inr (Or.inr ⟨i, .trans _ _ _ j k⟩)
      · exact Or.inl (.trans _ _ _ i m)
      · exact Or.inr (Or.inr ⟨i, m⟩)
  · rintro (h | ⟨h, k⟩ | ⟨h, k⟩)
    · exact up h
    · exact .trans _ _ _ (up h) (.trans _ _ _ huv (up k))
    · exact .trans _ _ _ (up h) (.trans _ _ _ (.symm _ _ huv) (up k))

theorem connOff_single (hG : G.WF) (hU : G.Undirected rev) {b : E} {x y : V} (h : G.ConnOff rev [b] x y) :
    x = y ∨ x ∈ G.vertices ∧ y ∈ G.vertices ∧ G.ReachWithout rev b x y := by
  induction h with
  | rel x y h =>
    obtain ⟨hx, f, hf, rfl, h3, h4⟩ := h
    refine Or.inr ⟨hx, hG.tgt x hx f hf, .single ⟨f, hf, rfl, by simpa using h3, fun hh => h4 ?_⟩⟩
    rw [hh, hU.invol]
    simp
  | refl x => exact Or.inl rfl
  | symm x y _ ih =>
    rcases ih with h | ⟨h1, h2, h3⟩
    · exact Or.inl h.symm
    · exact Or.inr ⟨h2, h1, (hU.reachWithout_symm hG h1 h3).2⟩
  | trans x y z _ _ ih1 ih2 =>
    rcases ih1 with rfl | ⟨h1, h2, h3⟩
    · exact ih2
    · rcases ih2 with rfl | ⟨k1, k2, k3⟩
      · exact Or.inr ⟨h1, h2, h3⟩
      · exact Or.inr ⟨h1, k2, h3.trans k3⟩

theorem connOff_nil (hG : G.WF) (hU : G.Undirected rev) {x y : V} (hx : x ∈ G.vertices) :
    G.ConnOff rev [] x y ↔ G.Reach x y := by
  constructor
  · intro h
    have key : x = y ∨ x ∈ G.vertices ∧ y ∈ G.vertices ∧ G.Reach x y := by
      clear hx
      induction h with
      | rel x y h =>
        obtain ⟨hx, f, hf, rfl, -, -⟩ := h
        exact Or.inr ⟨hx, hG.tgt x hx f hf, .single ⟨f, hf, rfl⟩⟩
      | refl x => exact Or.inl rfl
      | symm x y _ ih =>
        rcases ih with h | ⟨h1, h2, h3⟩
        · exact Or.inl h.symm
        · exact Or.inr ⟨h2, h1, hU.symmetric.reach hG h1 h3⟩
      | trans x y z _ _ ih1 ih2 =>
        rcases ih1 with rfl | ⟨h1, h2, h3⟩
        · exact ih2
        · rcases ih2 with rfl | ⟨k1, k2, k3⟩
          · exact Or.inr ⟨h1, h2, h3⟩
          · exact Or.inr ⟨h1, k2, h3.trans k3⟩
    rcases key with rfl | ⟨-, -, h⟩
    · exact .refl
    · exact h
  · intro h
    induction h with
    | refl => exact .refl _
    | @tail b c hb hadj ih =>
      obtain ⟨f, hf, rfl⟩ := hadj
      exact .trans _ _ _ ih (.rel _ _ ⟨hG.reach_mem hx hb, f, hf, rfl, by simp, by simp⟩)

/-- The vertices connected to one by edges other than those in `B`. -/
def Graph.classOff (G : Graph V E) (rev : E → E) (B : List E) (x : V) : Set V := {y | G.ConnOff rev B x y}

theorem classOff_eq {B : List E} {x y : V} : G.classOff rev B x = G.classOff rev B y ↔ G.ConnOff rev B x y := by
  constructor
  · intro h
    have : y ∈ G.classOff rev B y := EqvGen.refl y
    rw [← h] at this
    exact this
  · intro h
    ext z
    exact ⟨fun k => .trans _ _ _ (.symm _ _ h) k, fun k => .trans _ _ _ h k⟩

open Classical in
/-- Removal of bridges, one after the other, makes one component more each time. -/
theorem count_classes (hG : G.WF) (hU : G.Undirected rev) (B : List E) (hn : B.Nodup) (hr : ∀ e ∈ B, rev e ∉ B)
    (hB : ∀ e ∈ B, (∃ u ∈ G.vertices, e ∈ G.out u) ∧ G.Bridge rev e) :
    (G.vertices.toFinset.image (G.classOff rev B)).card = (G.vertices.toFinset.image (G.classOff rev [])).card + B.length := by
  induction B with
  | nil => rfl
  | cons b B ih =>
    obtain ⟨⟨u, hu, hb⟩, hbr⟩ := hB b List.mem_cons_self
    have ih := ih (List.nodup_cons.mp hn).2 (fun e he h => hr e (List.mem_cons_of_mem b he) (List.mem_cons_of_mem b h))
      (fun e he => hB e (List.mem_cons_of_mem b he))
    have h1 := (List.nodup_cons.mp hn).1
    have h2 : rev b ∉ B := fun h => hr b List.mem_cons_self (List.mem_cons_of_mem b h)
    have hj := card_join G.vertices.toFinset (G.classOff rev (b :: B)) (G.classOff rev B) u (G.tgt b) (by simpa using hu)
      (by simpa using hG.tgt u hu b hb)
      (fun h => by
        have h3 := connOff_mono (B := [b]) (by simp) (classOff_eq.mp h)
        have hs := hG.src u hu b hb
        apply hbr
        rw [hs]
        rcases connOff_single hG hU h3 with h4 | ⟨-, -, h4⟩
        · rw [← h4]; exact .refl
        · exact h4)
      (fun x _ y _ => by
        simp only [classOff_eq]
        exact connOff_cons hG hU hu hb h1 h2 x y)
    rw [hj, ih, List.length_cons]
    omega

/-- The searches of one undirected graph for bridges and two-edge-connected components, and for connected
components: the two-edge-connected component numbers used are just 0, .., n - 1 where `n` is the number
of connected components plus the number of bridges output. -/
theorem bridge_count {par : Bool} (hG : G.WF) (hU : G.Undirected rev) (hpar : par = false → G.Simple)
    (map cmap : V → Int) (f₁ f₂ : Nat) (bridges : List E) (two comp : V → Int) (count : Int)
    (h₁ : findBridges G par f₁ map = some (bridges, two))
    (h₂ : dfsAll G (componentRecorder : Comp _ V E) (fun _ => false) f₂ (cmap, 0) = some (comp, count)) :
    ∀ k, (∃ v ∈ G.vertices, two v = k) ↔ 0 ≤ k ∧ k < count + bridges.length := by
  classical
  obtain ⟨b1, b2, b3, b4, b5, c2, b6⟩ := (findBridges_spec (par := par) hG hU hpar map).2 _ _ _ h₁
  obtain ⟨c1, c3⟩ := (components_spec hG hU.symmetric cmap).2 _ _ _ h₂
  have hb : ∀ e ∈ bridges, (∃ u ∈ G.vertices, e ∈ G.out u) ∧ G.Bridge rev e := by
    intro e he
    obtain ⟨u, hu, heu⟩ := b2 e he
    exact ⟨⟨u, hu, heu⟩, (b1 u hu e heu).mp (Or.inl he)⟩
  have hcount := count_classes hG hU bridges b3 b4 hb
  have hS : ∀ v, v ∈ G.vertices.toFinset ↔ v ∈ G.vertices := fun v => List.mem_toFinset
  have hI : ∀ (f : V → Int) (n : Int), (∀ k, (∃ v ∈ G.vertices, f v = k) ↔ 0 ≤ k ∧ k < n) →
      (G.vertices.toFinset.image f).card = n.toNat := by
    intro f n h
    have : G.vertices.toFinset.image f = Finset.Ico 0 n := by
      ext k
      simp only [Finset.mem_image, hS, Finset.mem_Ico]
      exact h k
    rw [this, Int.card_Ico]
    simp
  have e1 : (G.vertices.toFinset.image comp).card = (G.vertices.toFinset.image (G.classOff rev [])).card := by
    refine card_image_eq_of_kernel _ _ _ fun x hx y hy => ?_
    rw [classOff_eq, connOff_nil hG hU ((hS x).mp hx), c1 x ((hS x).mp hx) y ((hS y).mp hy)]
  have e2 : (G.vertices.toFinset.image two).card = (G.vertices.toFinset.image (G.classOff rev bridges)).card := by
    refine card_image_eq_of_kernel _ _ _ fun x hx y hy => ?_
    rw [classOff_eq, b5 x ((hS x).mp hx) y ((hS y).mp hy), ← hU.nb_iff hG ((hS x).mp hx)]
    have hstep : ∀ a c, G.StepOff rev bridges a c ↔ (a ∈ G.vertices ∧ ∃ f ∈ G.out a, G.tgt f = c ∧ ¬G.Bridge rev f) := by
      intro a c
      constructor
      · rintro ⟨ha, f, hf, ht, h3, h4⟩
        exact ⟨ha, f, hf, ht, fun h => ((b1 a ha f hf).mpr h).elim h3 h4⟩
      · rintro ⟨ha, f, hf, ht, h3⟩
        exact ⟨ha, f, hf, ht, fun h => h3 ((b1 a ha f hf).mp (Or.inl h)), fun h => h3 ((b1 a ha f hf).mp (Or.inr h))⟩
    have heq := hU.nb_equiv hG
    constructor
    · intro h
      clear hx hy
      induction h with
      | rel a c h => exact .single ((hstep a c).mp h)
      | refl a => exact .refl
      | symm a c _ ih => exact heq.symm ih
      | trans a c d _ _ ih1 ih2 => exact heq.trans ih1 ih2
    · intro h
      clear hx hy
      induction h with
      | refl => exact .refl _
      | tail _ h ih => exact .trans _ _ _ ih (.rel _ _ ((hstep _ _).mpr h))
  rw [← e1, ← e2, hI two c2 b6, hI comp count c3] at hcount
  intro k
  rw [b6 k]
  by_cases hV : bridges = []
  · simp only [hV, List.length_nil] at hcount ⊢
    omega
  · obtain ⟨e, he⟩ := List.exists_mem_of_ne_nil _ hV
    obtain ⟨u, hu, -⟩ := b2 e he
    have := (c3 (comp u)).mp ⟨u, hu, rfl⟩
    omega

/-- Three two-edge-connected components, two components, one bridge. -/
example : (findBridges sampleBridges true 50 (fun _ => 9)).map (fun r => (r.1, sampleBridges.vertices.map r.2)) =
      some ([(1, 2, 2)], [1, 1, 0, 0, 0, 2]) ∧
    (dfsAll sampleBridges (componentRecorder : Comp _ Nat _) (fun _ => false) 50 (fun _ => 9, 0)).map
      (fun r => (sampleBridges.vertices.map r.1, r.2)) = some ([0, 0, 0, 0, 0, 1], 2) := by
  decide +kernel

end Actl.Traversal
