import Verif.Model.IntClosest
import Verif.Props.IntLines
import Verif.Lemmas.FloatClosest

/-!
Lemmas about the closest and the furthest points with integer coordinates.
-/

namespace Actl.Geo

variable {F : Type*} [Zero F] [LinearOrder F]
variable {root conv : Int → F} {w W : Nat} {o : Vec Int 2} {D : Int}

/-- What is assumed of the square root and of the conversion of an integer that is compared with a distance: the root of a greater number
is not less, and an integer converted is not greater than the root of its square. -/
structure RootOf (root conv : Int → F) (D : Int) : Prop where
  mono : ∀ x y, 0 ≤ x → x ≤ y → y ≤ 2 * (D * D) → root x ≤ root y
  conv_le : ∀ x, 0 ≤ x → x ≤ D → conv x ≤ root (x * x)

theorem dist2_int (p q : Vec Int 2) : dist2 p q = (p 0 - q 0) * (p 0 - q 0) + (p 1 - q 1) * (p 1 - q 1) := by
  simp only [dist2, Fin.sum_univ_two]; ring

theorem dist2_int_comm (p q : Vec Int 2) : dist2 p q = dist2 q p := by
  rw [dist2_int, dist2_int]; ring

theorem dist2_box {p q : Vec Int 2} (hp : InBox o D p) (hq : InBox o D q) : 0 ≤ dist2 p q ∧ dist2 p q ≤ 2 * (D * D) := by
  have h := bounded_diff hp hq
  have h1 := bounded_mul (h 0) (h 0)
  have h2 := bounded_mul (h 1) (h 1)
  simp only [Pi.sub_apply] at h1 h2
  rw [dist2_int]
  exact ⟨add_nonneg (mul_self_nonneg _) (mul_self_nonneg _), by linarith⟩

omit [Zero F] [LinearOrder F] in
theorem distancePointI_box (hw : D < 2 ^ (w - 1)) (hW : 2 * (D * D) < 2 ^ (W - 1)) {p q : Vec Int 2} (hp : InBox o D p)
    (hq : InBox o D q) : distancePointI root w W p q = some (root (dist2 p q)) := by
  rw [distancePointI, sub_box hp hq hw, Option.bind_some, dotI_bounded (bounded_diff hp hq) (bounded_diff hp hq) hW, Option.map_some,
    dist2_int]
  rfl

theorem coord_box (hw : D < 2 ^ (w - 1)) {p q : Vec Int 2} (hp : InBox o D p) (hq : InBox o D q) (i : Fin 2) :
    fitInt w (p i - q i) = some (p i - q i) := by
  have h := bounded_diff hp hq i
  simp only [Pi.sub_apply] at h
  exact fitInt_some (by linarith) (by linarith)

theorem absI_box (hw : D < 2 ^ (w - 1)) {x : Int} (h : -D ≤ x ∧ x ≤ D) : absI w x = some |x| := by
  unfold absI
  split_ifs with h0
  · rw [fitInt_some (by linarith) (by linarith), abs_of_neg h0]
  · rw [abs_of_nonneg (not_lt.1 h0)]

/-- The result is the computed distance of two elements of the list. -/
def RealizedI (root : Int → F) (l : List (Vec Int 2)) (r : DistPairI F) : Prop :=
  r.1 = root (dist2 r.2.1 r.2.2) ∧ PairIn l r.2.1 r.2.2

/-- No two elements of the list are computed to be closer. -/
def BoundI (root : Int → F) (l : List (Vec Int 2)) (r : F) : Prop := l.Pairwise fun c d => r ≤ root (dist2 c d)

omit [Zero F] in
theorem BoundI.perm {l l' : List (Vec Int 2)} {r : F} (h : l.Perm l') (hb : BoundI root l r) : BoundI root l' r :=
  (h.pairwise_iff fun {c d} h => by rwa [dist2_int_comm]).1 hb

omit [Zero F] in
theorem BoundI.mono {l : List (Vec Int 2)} {r r' : F} (h : r' ≤ r) (hb : BoundI root l r) : BoundI root l r' :=
  hb.imp fun h' => h.trans h'

omit [Zero F] in
theorem far_of_coordI (hr : RootOf root conv D) {c d : Vec Int 2} (hc : InBox o D c) (hd : InBox o D d) (i : Fin 2) {r : F} {x : Int}
    (h0 : 0 ≤ x) (hx : x ≤ |c i - d i|) (h : r ≤ conv x) : r ≤ root (dist2 c d) := by
  have hb := bounded_diff hc hd i
  simp only [Pi.sub_apply] at hb
  have hD : x ≤ D := hx.trans (abs_le.2 hb)
  have hsq : x * x ≤ (c i - d i) * (c i - d i) := by
    rw [← abs_mul_abs_self (c i - d i)]
    exact mul_le_mul hx hx h0 (abs_nonneg _)
  have hle : x * x ≤ dist2 c d := by
    refine hsq.trans ?_
    rw [dist2_int]
    match i with
    | 0 => exact le_add_of_nonneg_right (mul_self_nonneg _)
    | 1 => exact le_add_of_nonneg_left (mul_self_nonneg _)
  exact (h.trans (hr.conv_le x h0 hD)).trans (hr.mono _ _ (mul_self_nonneg _) hle (dist2_box hc hd).2)

theorem bruteForceI_near (hw : D < 2 ^ (w - 1)) (hW : 2 * (D * D) < 2 ^ (W - 1)) (l : List (Vec Int 2))
    (hl : ∀ p ∈ l, InBox o D p) (h2 : 2 ≤ l.length) (h3 : l.length ≤ 3) :
    ∃ r : DistPairI F, bruteForceI root w W l = some r ∧ RealizedI root l r ∧ BoundI root l r.1 := by
  match l, h2, h3 with
  | [a, b], _, _ =>
    have e := distancePointI_box (root := root) hw hW (hl a (by simp)) (hl b (by simp))
    refine ⟨(root (dist2 a b), a, b), ?_, ⟨rfl, [], List.Perm.refl _⟩, by simp [BoundI]⟩
    simp [bruteForceI, List.range_succ, List.range', bruteStepI, e]
  | [a, b, c], _, _ =>
    have e1 := distancePointI_box (root := root) hw hW (hl a (by simp)) (hl b (by simp))
    have e2 := distancePointI_box (root := root) hw hW (hl a (by simp)) (hl c (by simp))
    have e3 := distancePointI_box (root := root) hw hW (hl b (by simp)) (hl c (by simp))
    have e : bruteForceI root w W [a, b, c] =
        some (let r1 : DistPairI F := (root (dist2 a b), a, b)
         let r2 := if root (dist2 a c) < r1.1 then (root (dist2 a c), a, c) else r1
         if root (dist2 b c) < r2.1 then (root (dist2 b c), b, c) else r2) := by
      simp [bruteForceI, List.range_succ, List.range', bruteStepI, e1, e2, e3]
    refine ⟨_, e, ?_⟩
    have p1 : PairIn [a, b, c] a b := ⟨[c], List.Perm.refl _⟩
    have p2 : PairIn [a, b, c] a c := ⟨[b], (List.Perm.swap c b []).cons a⟩
    have p3 : PairIn [a, b, c] b c := ⟨[a], by
      refine (List.Perm.swap b a [c]).trans ((List.Perm.swap c a []).cons b)⟩
    simp only [RealizedI, BoundI, List.pairwise_cons, List.mem_cons, List.not_mem_nil, or_false,
      forall_eq_or_imp, forall_eq, List.Pairwise.nil, and_true, IsEmpty.forall_iff, implies_true]
    split_ifs with h1 h2 h2 <;> simp only [not_lt] at * <;>
      refine ⟨⟨trivial, by assumption⟩, ⟨?_, ?_⟩, ?_⟩ <;>
        first | exact le_refl _ | assumption | exact le_of_lt (by assumption) | exact (le_of_lt h2).trans (le_of_lt h1) |
          exact (le_of_lt h2).trans h1 | exact h2.trans (le_of_lt h1) | exact h2.trans h1

omit [Zero F] in
theorem scanStripI_near (hr : RootOf root conv D) (hw : D < 2 ^ (w - 1)) (hW : 2 * (D * D) < 2 ^ (W - 1)) (whole : List (Vec Int 2))
    (p : Vec Int 2) (hp : InBox o D p) :
    ∀ (kept : List (Vec Int 2)) (res : DistPairI F), (∀ q ∈ kept, InBox o D q ∧ q 1 ≤ p 1) → RealizedI root whole res →
      (∀ q ∈ kept, PairIn whole p q) → (kept.Pairwise fun a b => b 1 ≤ a 1) →
      ∃ r, scanStripI root conv w W p res kept = some r ∧ r.1 ≤ res.1 ∧ RealizedI root whole r ∧
        ∀ q ∈ kept, r.1 ≤ root (dist2 p q)
  | [], res, _, hs, _, _ => ⟨res, rfl, le_refl _, hs, by simp⟩
  | q :: qs, res, hb, hs, hk, hy => by
    rw [List.pairwise_cons] at hy
    obtain ⟨bq, yq⟩ := hb q List.mem_cons_self
    rw [scanStripI, coord_box hw hp bq, Option.bind_some, distancePointI_box hw hW hp bq]
    split_ifs with hlt
    · have hr' : RealizedI root whole (if root (dist2 p q) < res.1 then (root (dist2 p q), p, q) else res) := by
        split_ifs
        · exact ⟨rfl, hk q List.mem_cons_self⟩
        · exact hs
      obtain ⟨r, e, h1, h2, h3⟩ := scanStripI_near hr hw hW whole p hp qs _ (fun x hx => hb x (List.mem_cons_of_mem _ hx)) hr'
        (fun x hx => hk x (List.mem_cons_of_mem _ hx)) hy.2
      have h4 : (if root (dist2 p q) < res.1 then (root (dist2 p q), p, q) else res).1 ≤ res.1 ∧
          (if root (dist2 p q) < res.1 then (root (dist2 p q), p, q) else res).1 ≤ root (dist2 p q) := by
        split_ifs with hd
        · exact ⟨hd.le, le_refl _⟩
        · exact ⟨le_refl _, not_lt.1 hd⟩
      refine ⟨r, e, h1.trans h4.1, h2, fun x hx => ?_⟩
      rcases List.mem_cons.1 hx with rfl | hx
      · exact h1.trans h4.2
      · exact h3 x hx
    · refine ⟨res, rfl, le_refl _, hs, fun x hx => ?_⟩
      have hx1 : x 1 ≤ q 1 := by
        rcases List.mem_cons.1 hx with rfl | hx
        · exact le_refl _
        · exact hy.1 x hx
      refine far_of_coordI hr hp (hb x hx).1 1 (x := p 1 - q 1) (by linarith) ?_ (not_lt.1 hlt)
      rw [abs_of_nonneg (by linarith)]
      linarith

/-- Two points whose computed distance is known to be large or that are on different sides of the line. -/
def ApartI (root : Int → F) (r0 : F) (mx : Int) (c d : Vec Int 2) : Prop :=
  r0 ≤ root (dist2 c d) ∨ c 0 ≤ mx ∧ mx ≤ d 0 ∨ d 0 ≤ mx ∧ mx ≤ c 0

omit [Zero F] in
theorem ApartI.symm {r0 : F} {mx : Int} {c d : Vec Int 2} (h : ApartI root r0 mx c d) : ApartI root r0 mx d c := by
  rcases h with h | h | h
  · exact Or.inl (by rwa [dist2_int_comm])
  · exact Or.inr (Or.inr h)
  · exact Or.inr (Or.inl h)

omit [Zero F] in
theorem ApartI.far (hr : RootOf root conv D) {r0 r : F} {mx : Int} {c d : Vec Int 2} (bc : InBox o D c) (bd : InBox o D d)
    (h : ApartI root r0 mx c d) (h0 : r ≤ r0) (hc : r ≤ conv |c 0 - mx|) : r ≤ root (dist2 c d) := by
  rcases h with h | h | h
  · exact h0.trans h
  · refine far_of_coordI hr bc bd 0 (abs_nonneg _) ?_ hc
    rw [abs_of_nonpos (by linarith), abs_of_nonpos (by linarith)]; linarith
  · refine far_of_coordI hr bc bd 0 (abs_nonneg _) ?_ hc
    rw [abs_of_nonneg (by linarith), abs_of_nonneg (by linarith)]; linarith

omit [Zero F] in
theorem stripLoopI_near (hr : RootOf root conv D) (hw : D < 2 ^ (w - 1)) (hW : 2 * (D * D) < 2 ^ (W - 1)) (m : Vec Int 2)
    (hm : InBox o D m) (r0 : F) (whole : List (Vec Int 2)) (hbox : ∀ p ∈ whole, InBox o D p)
    (hy : whole.Pairwise fun a b => a 1 ≤ b 1) (ha : whole.Pairwise (ApartI root r0 (m 0))) :
    ∀ (ps pre kept : List (Vec Int 2)) (res : DistPairI F), whole = pre ++ ps → res.1 ≤ r0 →
      RealizedI root whole res → BoundI root pre res.1 →
      (∀ q ∈ pre, q ∈ kept ∨ res.1 ≤ conv |q 0 - m 0|) → (∀ q ∈ kept, q ∈ pre) →
      (kept.Pairwise fun a b => b 1 ≤ a 1) →
      ∃ r, stripLoopI root conv w W (m 0) res kept ps = some r ∧ RealizedI root whole r ∧ BoundI root whole r.1
  | [], pre, kept, res, hw', _, hs, hb, _, _, _ => by
    rw [List.append_nil] at hw'
    rw [stripLoopI, hw']
    exact ⟨res, rfl, hw' ▸ hs, hb⟩
  | p :: ps, pre, kept, res, hwh, h0, hs, hb, hq, hk, hd => by
    have hw' : whole = (pre ++ [p]) ++ ps := by rw [hwh]; simp
    have hy' := hy
    have ha' := ha
    rw [hw', List.pairwise_append, List.pairwise_append] at hy' ha'
    have hyp : ∀ q ∈ pre, q 1 ≤ p 1 := fun q hq => hy'.1.2.2 q hq p List.mem_cons_self
    have hap : ∀ q ∈ pre, ApartI root r0 (m 0) q p := fun q hq => ha'.1.2.2 q hq p List.mem_cons_self
    have bp : InBox o D p := hbox p (by rw [hwh]; simp)
    have bpre : ∀ q ∈ pre, InBox o D q := fun q hq => hbox q (by rw [hwh]; exact List.mem_append_left _ hq)
    have bound_snoc : ∀ r, r ≤ res.1 → (∀ q ∈ pre, r ≤ root (dist2 q p)) → BoundI root (pre ++ [p]) r := by
      intro r hr hqp
      rw [BoundI, List.pairwise_append]
      refine ⟨hb.mono hr, List.pairwise_singleton _ _, fun q hq x hx => ?_⟩
      rw [List.mem_singleton] at hx
      rw [hx]; exact hqp q hq
    have hab := bounded_diff bp hm 0
    simp only [Pi.sub_apply] at hab
    rw [stripLoopI, coord_box hw bp hm 0, Option.bind_some, absI_box hw hab, Option.bind_some]
    split_ifs with hc
    · have hpair : ∀ q ∈ kept, PairIn whole p q := by
        intro q hq
        obtain ⟨s, t, hst⟩ := List.append_of_mem (hk q hq)
        refine ⟨s ++ t ++ ps, ?_⟩
        rw [hwh, hst]
        have e1 : (s ++ q :: t ++ p :: ps).Perm (p :: (s ++ q :: t ++ ps)) := List.perm_middle
        have e2 : (s ++ q :: t).Perm (q :: (s ++ t)) := List.perm_middle
        exact e1.trans ((e2.append_right ps).cons p)
      obtain ⟨res', e, s1, s2, s3⟩ := scanStripI_near hr hw hW whole p bp kept res
        (fun q hq => ⟨bpre q (hk q hq), hyp q (hk q hq)⟩) hs hpair hd
      rw [e, Option.bind_some]
      refine stripLoopI_near hr hw hW m hm r0 whole hbox hy ha ps (pre ++ [p]) (p :: kept) res' hw'
        (s1.trans h0) s2 (bound_snoc _ s1 fun q hqm => ?_) ?_ ?_ ?_
      · rcases hq q hqm with hm' | hm'
        · rw [dist2_int_comm]; exact s3 q hm'
        · exact (hap q hqm).far hr (bpre q hqm) bp (s1.trans h0) (s1.trans hm')
      · intro q hqm
        rcases List.mem_append.1 hqm with h | h
        · rcases hq q h with h | h
          · exact Or.inl (List.mem_cons_of_mem _ h)
          · exact Or.inr (s1.trans h)
        · rw [List.mem_singleton] at h
          exact Or.inl (h ▸ List.mem_cons_self)
      · intro q hqm
        rcases List.mem_cons.1 hqm with h | h
        · exact List.mem_append_right _ (h ▸ List.mem_cons_self)
        · exact List.mem_append_left _ (hk q h)
      · rw [List.pairwise_cons]
        exact ⟨fun q hqm => hyp q (hk q hqm), hd⟩
    · rw [not_lt] at hc
      refine stripLoopI_near hr hw hW m hm r0 whole hbox hy ha ps (pre ++ [p]) kept res hw' h0 hs
        (bound_snoc _ (le_refl _) fun q hqm => ?_) ?_ ?_ hd
      · rw [dist2_int_comm]
        exact (hap q hqm).symm.far hr bp (bpre q hqm) h0 hc
      · intro q hqm
        rcases List.mem_append.1 hqm with h | h
        · exact hq q h
        · rw [List.mem_singleton] at h
          exact Or.inr (h ▸ hc)
      · exact fun q hqm => List.mem_append_left _ (hk q hqm)

theorem yLess_strictWeakI (l : List (Vec Int 2)) : StrictWeak yLess l := by
  refine ⟨fun a _ => ?_, fun a _ b _ c _ => ?_, fun a _ b _ c _ => ?_⟩ <;> simp [yLess] <;> omega

theorem nearestRecI_near (hr : RootOf root conv D) (hw : D < 2 ^ (w - 1)) (hW : 2 * (D * D) < 2 ^ (W - 1))
    (alg : StdAlgorithms (Vec Int 2)) (ha : alg.Correct) :
    ∀ (n : Nat) (l : List (Vec Int 2)), (∀ p ∈ l, InBox o D p) → l.length ≤ n → 2 ≤ l.length → (l.Pairwise fun a b => a 0 ≤ b 0) →
      ∃ r, nearestRecI root conv w W alg l = some r ∧ r.2.Perm l ∧ (r.2.Pairwise fun a b => a 1 ≤ b 1) ∧
        RealizedI root l r.1 ∧ BoundI root l r.1.1
  | 0, l, _, hn, h2, _ => by omega
  | n + 1, l, hbox, hn, h2, hx => by
    rw [nearestRecI]
    split_ifs with h3
    · obtain ⟨s1, s2⟩ := ha.2 _ _ (yLess_strictWeakI l)
      obtain ⟨r, e, b1, b2⟩ := bruteForceI_near (root := root) hw hW l hbox h2 h3
      rw [e]
      refine ⟨_, rfl, s1, s2.imp fun h => ?_, b1, b2⟩
      simpa [yLess] using h
    · have hm : l.length / 2 < l.length := by omega
      have hxt := hx
      rw [← List.take_append_drop (l.length / 2) l, List.pairwise_append] at hxt
      obtain ⟨L, el, l1, l2, l3, l4⟩ := nearestRecI_near hr hw hW alg ha n (l.take (l.length / 2))
        (fun p hp => hbox p (List.mem_of_mem_take hp)) (by rw [List.length_take]; omega) (by rw [List.length_take]; omega) hxt.1
      obtain ⟨R, er, r1, r2, r3, r4⟩ := nearestRecI_near hr hw hW alg ha n (l.drop (l.length / 2))
        (fun p hp => hbox p (List.mem_of_mem_drop hp)) (by rw [List.length_drop]; omega) (by rw [List.length_drop]; omega) hxt.2.1
      obtain ⟨m, em⟩ : ∃ m, l[l.length / 2]? = some m := ⟨_, List.getElem?_eq_getElem hm⟩
      have bm : InBox o D m := hbox m (List.mem_of_getElem? em)
      have hmx : m ∈ l.drop (l.length / 2) ∧ ∀ d ∈ l.drop (l.length / 2), m 0 ≤ d 0 := by
        have e : l.drop (l.length / 2) = m :: l.drop (l.length / 2 + 1) := by
          rw [List.getElem?_eq_getElem hm] at em
          cases em
          exact List.drop_eq_getElem_cons hm
        refine ⟨by rw [e]; exact List.mem_cons_self, fun d hd => ?_⟩
        have h := hxt.2.1
        rw [e, List.pairwise_cons] at h
        rw [e] at hd
        rcases List.mem_cons.1 hd with rfl | hd
        · exact le_refl _
        · exact h.1 d hd
      rw [em, el, er]
      simp only [Option.bind_some]
      have hmx1 : ∀ c ∈ l.take (l.length / 2), c 0 ≤ m 0 := fun c hc => hxt.2.2 c hc _ hmx.1
      have hmx2 := hmx.2
      have hl : l.Perm (l.take (l.length / 2) ++ l.drop (l.length / 2)) := by
        rw [List.take_append_drop]
      clear el er em hmx hxt
      generalize l.take (l.length / 2) = lt at *
      generalize l.drop (l.length / 2) = ld at *
      have hm1 : (List.merge L.2 R.2 fun a b => !yLess b a).Perm (lt ++ ld) :=
        (List.merge_perm_append _).trans (l1.append r1)
      have hm2 : (List.merge L.2 R.2 fun a b => !yLess b a).Pairwise fun a b => a 1 ≤ b 1 := by
        have := List.pairwise_merge (le := fun a b : Vec Int 2 => !yLess b a)
          (by intro a b c; simp only [yLess]; simpa using fun h1 h2 => le_trans h1 h2)
          (by intro a b; simp only [yLess]; simpa using le_total (a 1) (b 1)) L.2 R.2
          (l2.imp fun h => by simpa [yLess] using h) (r2.imp fun h => by simpa [yLess] using h)
        exact this.imp fun h => by simpa [yLess] using h
      generalize List.merge L.2 R.2 (fun a b => !yLess b a) = whole at *
      have hres : (if R.1.1 < L.1.1 then R.1 else L.1).1 ≤ L.1.1 ∧
          (if R.1.1 < L.1.1 then R.1 else L.1).1 ≤ R.1.1 ∧
          RealizedI root whole (if R.1.1 < L.1.1 then R.1 else L.1) := by
        split_ifs with h
        · exact ⟨h.le, le_refl _, r3.1, (r3.2.append_right lt).perm hm1.symm⟩
        · exact ⟨le_refl _, not_lt.1 h, l3.1, (l3.2.append_left ld).perm hm1.symm⟩
      generalize (if R.1.1 < L.1.1 then R.1 else L.1) = res at *
      have hap : whole.Pairwise (ApartI root res.1 (m 0)) := by
        refine (hm1.pairwise_iff fun h => h.symm).2 ?_
        rw [List.pairwise_append]
        exact ⟨l4.imp fun h' => Or.inl (hres.1.trans h'), r4.imp fun h' => Or.inl (hres.2.1.trans h'),
          fun c hc d hd => Or.inr (Or.inl ⟨hmx1 c hc, hmx2 d hd⟩)⟩
      obtain ⟨f, ef, f1, f2⟩ := stripLoopI_near hr hw hW m bm res.1 whole
        (fun p hp => hbox p ((hm1.trans hl.symm).mem_iff.1 hp)) hm2 hap whole [] [] res rfl (le_refl _)
        hres.2.2 List.Pairwise.nil (by simp) (by simp) List.Pairwise.nil
      rw [ef]
      exact ⟨_, rfl, hm1.trans hl.symm, hm2, ⟨f1.1, f1.2.perm (hm1.trans hl.symm)⟩, f2.perm (hm1.trans hl.symm)⟩

theorem isEqual_int (a b : Vec Int 2) : isEqual a b = true ↔ a = b := by
  rw [← isEqual_exact (F := ℚ), isEqual_iff]
  exact exact_injective.eq_iff

theorem equalNeighboursI_some : ∀ (l : List (Vec Int 2)) {a b : Vec Int 2},
    equalNeighbours l = some (a, b) → PairIn l a b ∧ a = b
  | [], _, _, h => by simp [equalNeighbours] at h
  | [_], _, _, h => by simp [equalNeighbours] at h
  | x :: y :: rest, a, b, h => by
    rw [equalNeighbours] at h
    split_ifs at h with he
    · simp only [Option.some.injEq, Prod.mk.injEq] at h
      obtain ⟨rfl, rfl⟩ := h
      exact ⟨⟨rest, List.Perm.refl _⟩, (isEqual_int _ _).1 he⟩
    · obtain ⟨h1, h2⟩ := equalNeighboursI_some (y :: rest) h
      exact ⟨h1.append_right [x], h2⟩

theorem less_strictWeakI (l : List (Vec Int 2)) : StrictWeak less l := by
  have h := less_strictWeak (l.map (exact : Vec Int 2 → Vec ℚ 2))
  simp only [StrictWeak, List.forall_mem_map, less_exact] at h
  exact h

theorem less_first {a b : Vec Int 2} (h : less b a = false) : a 0 ≤ b 0 := by
  by_contra hn
  have : less b a = true := by
    rw [← less_exact (F := ℚ), less_iff]
    exact key_lt.2 (Or.inl (by simpa [exact] using not_le.1 hn))
  rw [h] at this
  cases this

end Actl.Geo
