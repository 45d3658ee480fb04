import Verif.Lemmas.SkewKey
import Verif.Lemmas.RppStrips
import Verif.Props.Partitions

/-!
# C112: the key of a skew shape

`skew_key` ends on all skew shapes; the keys of two skew shapes are equal exactly if the shapes are translates of each other, where a
shifted shape with boxes on the diagonal may only be moved along the diagonal.
-/

namespace Verif.Partition
open Verif.Part
attribute [-simp] List.getD_eq_getElem?_getD

/-- The boxes of `D'` are the boxes of `D` moved by `a` rows down and `b` columns to the right. -/
def IsTranslate (a b : Int) (D D' : Set (Nat × Nat)) : Prop :=
  (∀ x ∈ D, ∃ y ∈ D', (y.1 : Int) = x.1 + a ∧ (y.2 : Int) = x.2 + b) ∧ ∀ y ∈ D', ∃ x ∈ D, (y.1 : Int) = x.1 + a ∧ (y.2 : Int) = x.2 + b

/-- No box of `D` is on the diagonal. -/
def OffDiagonal (D : Set (Nat × Nat)) : Prop := ∀ x ∈ D, x.1 ≠ x.2

instance : Std.Total pairLe := ⟨fun a b => by unfold pairLe; omega⟩
instance : IsTrans (Nat × Nat) pairLe := ⟨fun a b c h1 h2 => by unfold pairLe at *; omega⟩
instance : Std.Antisymm pairLe := ⟨fun a b h1 h2 => by unfold pairLe at *; exact Prod.ext (by omega) (by omega)⟩

theorem nodup_moveBy {p q : Nat} {S : List (Nat × Nat)} (h : ∀ b ∈ S, p < b.1 ∧ q < b.2) (hS : S.Nodup) : (moveBy p q S).Nodup := by
  refine List.Nodup.map_on (fun x hx y hy hxy => ?_) hS
  have h1 := h x hx
  have h2 := h y hy
  simp only [Prod.mk.injEq] at hxy
  exact Prod.ext (by omega) (by omega)

/-- Sorted lists of the same boxes. -/
theorem sort_eq_iff {K K' : List (Nat × Nat)} (h : K.Nodup) (h' : K'.Nodup) :
    K.insertionSort pairLe = K'.insertionSort pairLe ↔ ∀ b, b ∈ K ↔ b ∈ K' := by
  constructor
  · intro he b
    rw [← List.mem_insertionSort pairLe, he, List.mem_insertionSort pairLe]
  · intro he
    have hp : K.Perm K' := (List.perm_ext_iff_of_nodup h h').2 he
    exact List.Perm.eq_of_pairwise (le := pairLe) (fun a b _ _ h1 h2 => antisymm h1 h2) (List.pairwise_insertionSort _ _) (List.pairwise_insertionSort _ _)
      (((List.perm_insertionSort _ _).trans hp).trans (List.perm_insertionSort _ _).symm)

/-- Equal moved sets are translates. -/
theorem translate_of_move {p q p' q' : Nat} {S S' : List (Nat × Nat)} (h : ∀ b ∈ S, p < b.1 ∧ q < b.2) (h' : ∀ b ∈ S', p' < b.1 ∧ q' < b.2)
    (he : ∀ b, b ∈ moveBy p q S ↔ b ∈ moveBy p' q' S') : IsTranslate ((p' : Int) - p) ((q' : Int) - q) {b | b ∈ S} {b | b ∈ S'} := by
  refine ⟨fun x hx => ?_, fun y hy => ?_⟩
  · obtain ⟨y, hy, hxy⟩ := mem_moveBy.1 ((he _).1 (mem_moveBy.2 ⟨x, hx, rfl⟩))
    rw [Prod.mk.injEq] at hxy
    have h1 := h x hx
    have h2 := h' y hy
    exact ⟨y, hy, by omega, by omega⟩
  · obtain ⟨x, hx, hxy⟩ := mem_moveBy.1 ((he _).2 (mem_moveBy.2 ⟨y, hy, rfl⟩))
    rw [Prod.mk.injEq] at hxy
    have h1 := h x hx
    have h2 := h' y hy
    exact ⟨x, hx, by omega, by omega⟩

theorem move_of_translate {p q p' q' : Nat} {S S' : List (Nat × Nat)} (h : ∀ b ∈ S, p < b.1 ∧ q < b.2) (h' : ∀ b ∈ S', p' < b.1 ∧ q' < b.2)
    (ht : IsTranslate ((p' : Int) - p) ((q' : Int) - q) {b | b ∈ S} {b | b ∈ S'}) : ∀ b, b ∈ moveBy p q S ↔ b ∈ moveBy p' q' S' := by
  intro b
  constructor
  · intro hb
    obtain ⟨x, hx, rfl⟩ := mem_moveBy.1 hb
    obtain ⟨y, hy, h3, h4⟩ := ht.1 x hx
    have h1 := h x hx
    have h2 := h' y hy
    exact mem_moveBy.2 ⟨y, hy, Prod.ext (by dsimp only; omega) (by dsimp only; omega)⟩
  · intro hb
    obtain ⟨y, hy, rfl⟩ := mem_moveBy.1 hb
    obtain ⟨x, hx, h3, h4⟩ := ht.2 y hy
    have h1 := h x hx
    have h2 := h' y hy
    exact mem_moveBy.2 ⟨x, hx, Prod.ext (by dsimp only; omega) (by dsimp only; omega)⟩

theorem translate_nil {a b : Int} {S S' : List (Nat × Nat)} (h : IsTranslate a b {b | b ∈ S} {b | b ∈ S'}) : S = [] ↔ S' = [] := by
  constructor
  · rintro rfl
    refine List.eq_nil_iff_forall_not_mem.2 (fun y hy => ?_)
    obtain ⟨x, hx, -⟩ := h.2 y hy
    simp at hx
  · rintro rfl
    refine List.eq_nil_iff_forall_not_mem.2 (fun y hy => ?_)
    obtain ⟨x, hx, -⟩ := h.1 y hy
    simp at hx

/-- The loop without shift on two lists of boxes. -/
theorem plain_iff {f f' : Nat} {S S' K K' : List (Nat × Nat)} (hS : ∀ b ∈ S, 0 < b.1 ∧ 0 < b.2) (hS' : ∀ b ∈ S', 0 < b.1 ∧ 0 < b.2)
    (h : skewKeyLoop false f S = some K) (h' : skewKeyLoop false f' S' = some K') :
    (∀ b, b ∈ K ↔ b ∈ K') ↔ ∃ a b, IsTranslate a b {b | b ∈ S} {b | b ∈ S'} := by
  obtain ⟨p, q, h1, rfl, h2⟩ := loop_plain hS h
  obtain ⟨p', q', h1', rfl, h2'⟩ := loop_plain hS' h'
  constructor
  · exact fun he => ⟨_, _, translate_of_move h1 h1' he⟩
  · rintro ⟨a, b, ht⟩
    by_cases h0 : S = []
    · have h0' := (translate_nil ht).1 h0
      subst h0 h0'
      simp [moveBy]
    have h0' : S' ≠ [] := fun hc => h0 ((translate_nil ht).2 hc)
    obtain ⟨⟨b1, hb1, e1⟩, b2, hb2, e2⟩ := h2 h0
    obtain ⟨⟨c1, hc1, d1⟩, c2, hc2, d2⟩ := h2' h0'
    obtain ⟨x1, hx1, rfl⟩ := mem_moveBy.1 hb1
    obtain ⟨x2, hx2, rfl⟩ := mem_moveBy.1 hb2
    obtain ⟨y1, hy1, rfl⟩ := mem_moveBy.1 hc1
    obtain ⟨y2, hy2, rfl⟩ := mem_moveBy.1 hc2
    dsimp only at e1 e2 d1 d2
    obtain ⟨z1, hz1, g1, -⟩ := ht.1 x1 hx1
    obtain ⟨z2, hz2, -, g2⟩ := ht.1 x2 hx2
    obtain ⟨w1, hw1, k1, -⟩ := ht.2 y1 hy1
    obtain ⟨w2, hw2, -, k2⟩ := ht.2 y2 hy2
    have := h1 w1 hw1
    have := h1 w2 hw2
    have := h1' z1 hz1
    have := h1' z2 hz2
    obtain rfl : a = (p' : Int) - p := by omega
    obtain rfl : b = (q' : Int) - q := by omega
    exact move_of_translate h1 h1' ht

/-- The shifted loop on two shapes that do not meet the diagonal. -/
theorem off_iff {f f' : Nat} {S S' K K' : List (Nat × Nat)} (hS : ∀ b ∈ S, 0 < b.1 ∧ b.1 < b.2) (hS' : ∀ b ∈ S', 0 < b.1 ∧ b.1 < b.2)
    (h : skewKeyLoop true f S = some K) (h' : skewKeyLoop true f' S' = some K') :
    (∀ b, b ∈ K ↔ b ∈ K') ↔ ∃ a b, IsTranslate a b {b | b ∈ S} {b | b ∈ S'} := by
  obtain ⟨p, q, h1, rfl, hk, h2⟩ := loop_off hS h
  obtain ⟨p', q', h1', rfl, hk', h2'⟩ := loop_off hS' h'
  constructor
  · exact fun he => ⟨_, _, translate_of_move h1 h1' he⟩
  · rintro ⟨a, b, ht⟩
    by_cases h0 : S = []
    · have h0' := (translate_nil ht).1 h0
      subst h0 h0'
      simp [moveBy]
    have h0' : S' ≠ [] := fun hc => h0 ((translate_nil ht).2 hc)
    obtain ⟨⟨b1, hb1, e1⟩, b2, hb2, e2⟩ := h2 h0
    obtain ⟨⟨c1, hc1, d1⟩, c2, hc2, d2⟩ := h2' h0'
    obtain ⟨x1, hx1, rfl⟩ := mem_moveBy.1 hb1
    obtain ⟨x2, hx2, rfl⟩ := mem_moveBy.1 hb2
    obtain ⟨y1, hy1, rfl⟩ := mem_moveBy.1 hc1
    obtain ⟨y2, hy2, rfl⟩ := mem_moveBy.1 hc2
    dsimp only at e1 e2 d1 d2
    obtain ⟨z1, hz1, g1, -⟩ := ht.1 x1 hx1
    obtain ⟨z2, hz2, g3, g2⟩ := ht.1 x2 hx2
    obtain ⟨w1, hw1, k1, -⟩ := ht.2 y1 hy1
    obtain ⟨w2, hw2, k3, k2⟩ := ht.2 y2 hy2
    have a1 := h1 w1 hw1
    have a2 := h1 w2 hw2
    have a3 := h1' z1 hz1
    have a4 := h1' z2 hz2
    have a5 := h1 x2 hx2
    have a6 := h1' y2 hy2
    have l1 := hk _ (mem_moveBy.2 ⟨w2, hw2, rfl⟩)
    have l2 := hk' _ (mem_moveBy.2 ⟨z2, hz2, rfl⟩)
    dsimp only at l1 l2
    obtain rfl : a = (p' : Int) - p := by omega
    obtain rfl : b = (q' : Int) - q := by omega
    exact move_of_translate h1 h1' ht

/-- The shifted loop on two shapes that meet the diagonal. -/
theorem on_iff {f f' : Nat} {S S' K K' : List (Nat × Nat)} (hS : ∀ b ∈ S, 0 < b.1 ∧ b.1 ≤ b.2) (hS' : ∀ b ∈ S', 0 < b.1 ∧ b.1 ≤ b.2)
    (hd : ∃ b ∈ S, b.1 = b.2) (hd' : ∃ b ∈ S', b.1 = b.2)
    (h : skewKeyLoop true f S = some K) (h' : skewKeyLoop true f' S' = some K') :
    (∀ b, b ∈ K ↔ b ∈ K') ↔ ∃ a, IsTranslate a a {b | b ∈ S} {b | b ∈ S'} := by
  obtain ⟨p, q, h1, rfl, ⟨x1, hx1, e1⟩, h2, ⟨x2, hx2, e2⟩⟩ := loop_on hS hd h
  obtain ⟨p', q', h1', rfl, ⟨y1, hy1, d1⟩, h2', ⟨y2, hy2, d2⟩⟩ := loop_on hS' hd' h'
  obtain ⟨x3, hx3, e3⟩ := hd
  obtain ⟨y3, hy3, d3⟩ := hd'
  constructor
  · intro he
    have ht := translate_of_move h1 h1' he
    obtain ⟨z, hz, g1, g2⟩ := ht.1 x3 hx3
    obtain ⟨w, hw, k1, k2⟩ := ht.2 y3 hy3
    have a1 := hS' z hz
    have a2 := hS w hw
    refine ⟨(p' : Int) - p, ?_⟩
    have hq : ((p' + q' : Nat) : Int) - (p + q : Nat) = (p' : Int) - p := by omega
    rwa [hq] at ht
  · rintro ⟨a, ht⟩
    obtain ⟨z1, hz1, g1, -⟩ := ht.1 x1 hx1
    obtain ⟨w1, hw1, k1, -⟩ := ht.2 y1 hy1
    have a1 := h1 w1 hw1
    have a3 := h1' z1 hz1
    obtain rfl : a = (p' : Int) - p := by omega
    obtain ⟨z2, hz2, g2, g3⟩ := ht.1 x2 hx2
    obtain ⟨w2, hw2, k2, k3⟩ := ht.2 y2 hy2
    have hq : q = q' := by
      by_contra hne
      rcases Nat.lt_or_ge q q' with hlt | hge
      · have := h2' q hlt z2 hz2
        omega
      · have := h2 q' (by omega) w2 hw2
        omega
    subst hq
    refine move_of_translate h1 h1' ?_
    have hq : ((p' + q : Nat) : Int) - (p + q : Nat) = (p' : Int) - p := by omega
    rwa [hq]

/-- The keys of a shape that meets the diagonal and of one that does not. -/
theorem mixed_ne {f f' : Nat} {S S' K K' : List (Nat × Nat)} (hS : ∀ b ∈ S, 0 < b.1 ∧ b.1 ≤ b.2) (hS' : ∀ b ∈ S', 0 < b.1 ∧ b.1 < b.2)
    (hd : ∃ b ∈ S, b.1 = b.2) (h : skewKeyLoop true f S = some K) (h' : skewKeyLoop true f' S' = some K') : ¬ ∀ b, b ∈ K ↔ b ∈ K' := by
  intro he
  obtain ⟨p, q, h1, rfl, -⟩ := loop_on hS hd h
  obtain ⟨p', q', h1', rfl, hk, h2'⟩ := loop_off hS' h'
  obtain ⟨x, hx, e⟩ := hd
  have := hk _ ((he _).1 (mem_moveBy.2 ⟨x, hx, rfl⟩))
  dsimp only at this
  omega

/-- More rounds do not change the result of the loop. -/
theorem loop_mono (sh : Bool) : ∀ (f g : Nat) (S K : List (Nat × Nat)), f ≤ g → skewKeyLoop sh f S = some K → skewKeyLoop sh g S = some K := by
  intro f
  induction f with
  | zero => intro g S K _ h; cases h
  | succ f ih =>
    intro g S K hfg h
    obtain ⟨g, rfl⟩ : ∃ g', g = g' + 1 := ⟨g - 1, by omega⟩
    rw [skewKeyLoop] at h ⊢
    split at h
    · rename_i h0; rw [if_pos h0]; exact h
    rename_i h0
    rw [if_neg h0]
    split at h
    · rename_i h0; rw [if_pos h0]; exact ih _ _ _ (by omega) h
    rename_i h0
    rw [if_neg h0]
    split at h
    · rename_i h0; rw [if_pos h0]; exact ih _ _ _ (by omega) h
    rename_i h0
    rw [if_neg h0]
    split at h
    · rename_i h0; rw [if_pos h0]; exact ih _ _ _ (by omega) h
    rename_i h0
    rw [if_neg h0]
    exact h

theorem skew_set {mu nu : List Nat} (hm : IsPartition mu) (hn : IsPartition nu) : {b | b ∈ skew mu nu} = Diagram mu \ Diagram nu :=
  Set.ext (fun b => C23_skew hm hn b)

theorem skew_set_shifted {mu nu : List Nat} (hm : IsStrict mu) (hn : IsStrict nu) : {b | b ∈ skew mu nu true} = ShiftedDiagram mu \ ShiftedDiagram nu :=
  Set.ext (fun b => C23_skew_shifted hm hn b)

theorem skew_pos {mu nu : List Nat} (hm : IsPartition mu) (hn : IsPartition nu) : ∀ b ∈ skew mu nu, 0 < b.1 ∧ 0 < b.2 := by
  intro b hb
  have := ((C23_skew hm hn b).1 hb).1
  exact ⟨this.1, this.2.1⟩

theorem skew_pos_shifted {mu nu : List Nat} (hm : IsStrict mu) (hn : IsStrict nu) : ∀ b ∈ skew mu nu true, 0 < b.1 ∧ b.1 ≤ b.2 := by
  intro b hb
  have := ((C23_skew_shifted hm hn b).1 hb).1
  exact ⟨this.1, this.2.1⟩

/-- C112: `skew_key` ends, for all pairs of tuples. -/
theorem C112_ends (mu nu : List Nat) (shifted : Bool) : ∃ N K, ∀ fuel ≥ N, skewKey fuel mu nu shifted = some K := by
  obtain ⟨N, hN, hN0⟩ : ∃ N, (∀ b ∈ (skew mu nu shifted).head?, b.1 + b.2 < N) ∧ 0 < N := by
    cases (skew mu nu shifted) with
    | nil => exact ⟨1, by simp, by omega⟩
    | cons b S => exact ⟨b.1 + b.2 + 1, by simp, by omega⟩
  obtain ⟨K, hK⟩ := loop_ends shifted N _ hN hN0
  refine ⟨N, K.insertionSort pairLe, fun g hg => ?_⟩
  rw [skewKey, loop_mono shifted N g _ _ hg hK]
  rfl

/-- C112: the key of `mu / nu` is a strictly increasing tuple of boxes; the boxes are a translate of the skew shape that uses the first
row and the first column. -/
theorem C112_form {mu nu : List Nat} (hm : IsPartition mu) (hn : IsPartition nu) {fuel : Nat} {K : List (Nat × Nat)}
    (h : skewKey fuel mu nu false = some K) :
    K.Pairwise (fun a b => a.1 < b.1 ∨ a.1 = b.1 ∧ a.2 < b.2) ∧ (∃ p q : Nat, IsTranslate p q {b | b ∈ K} (Diagram mu \ Diagram nu)) ∧
      (∀ b ∈ K, 1 ≤ b.1 ∧ 1 ≤ b.2) ∧ (K ≠ [] → (∃ b ∈ K, b.1 = 1) ∧ ∃ b ∈ K, b.2 = 1) := by
  obtain ⟨L, hL, rfl⟩ := Option.map_eq_some_iff.1 h
  obtain ⟨p, q, h1, rfl, h2⟩ := loop_plain (skew_pos hm hn) hL
  have hnd := nodup_moveBy h1 (Verif.Tableaux.nodup_skewFrom false nu mu 0)
  refine ⟨?_, ⟨p, q, ?_⟩, fun b hb => ?_, fun h0 => ?_⟩
  · have h3 := List.pairwise_insertionSort pairLe (moveBy p q (skew mu nu))
    have h4 : ((moveBy p q (skew mu nu)).insertionSort pairLe).Pairwise (· ≠ ·) := (List.perm_insertionSort pairLe _).nodup_iff.2 hnd
    refine (h3.and h4).imp (fun {a b} hab => ?_)
    obtain ⟨h5, h6⟩ := hab
    unfold pairLe at h5
    have : ¬ (a.1 = b.1 ∧ a.2 = b.2) := fun hc => h6 (Prod.ext hc.1 hc.2)
    omega
  · rw [← skew_set hm hn]
    refine ⟨fun x hx => ?_, fun y hy => ?_⟩
    · obtain ⟨y, hy, rfl⟩ := mem_moveBy.1 ((List.mem_insertionSort pairLe).1 hx)
      have := h1 y hy
      exact ⟨y, hy, by dsimp only; omega, by dsimp only; omega⟩
    · have := h1 y hy
      exact ⟨_, (List.mem_insertionSort pairLe).2 (mem_moveBy.2 ⟨y, hy, rfl⟩), by dsimp only; omega, by dsimp only; omega⟩
  · exact pos_moveBy h1 b ((List.mem_insertionSort pairLe).1 hb)
  · obtain ⟨⟨b, hb, hb'⟩, c, hc, hc'⟩ := h2 (fun hc => h0 (by rw [hc]; rfl))
    exact ⟨⟨b, (List.mem_insertionSort pairLe).2 hb, hb'⟩, c, (List.mem_insertionSort pairLe).2 hc, hc'⟩

/-- C112: two skew shapes have the same key exactly if they are translates of each other. -/
theorem C112_key {mu nu mu' nu' : List Nat} (hm : IsPartition mu) (hn : IsPartition nu) (hm' : IsPartition mu') (hn' : IsPartition nu')
    {fuel fuel' : Nat} {K K' : List (Nat × Nat)} (h : skewKey fuel mu nu false = some K) (h' : skewKey fuel' mu' nu' false = some K') :
    K = K' ↔ ∃ a b, IsTranslate a b (Diagram mu \ Diagram nu) (Diagram mu' \ Diagram nu') := by
  obtain ⟨L, hL, rfl⟩ := Option.map_eq_some_iff.1 h
  obtain ⟨L', hL', rfl⟩ := Option.map_eq_some_iff.1 h'
  rw [sort_eq_iff, plain_iff (skew_pos hm hn) (skew_pos hm' hn') hL hL', skew_set hm hn, skew_set hm' hn']
  · obtain ⟨p, q, h1, rfl, -⟩ := loop_plain (skew_pos hm hn) hL
    exact nodup_moveBy h1 (Verif.Tableaux.nodup_skewFrom false nu mu 0)
  · obtain ⟨p, q, h1, rfl, -⟩ := loop_plain (skew_pos hm' hn') hL'
    exact nodup_moveBy h1 (Verif.Tableaux.nodup_skewFrom false nu' mu' 0)

theorem shifted_nodup {mu nu : List Nat} (hm : IsStrict mu) (hn : IsStrict nu) {fuel : Nat} {L : List (Nat × Nat)}
    (hL : skewKeyLoop true fuel (skew mu nu true) = some L) : L.Nodup := by
  by_cases hd : ∃ b ∈ skew mu nu true, b.1 = b.2
  · obtain ⟨p, q, h1, rfl, -⟩ := loop_on (skew_pos_shifted hm hn) hd hL
    exact nodup_moveBy h1 (Verif.Tableaux.nodup_skewFrom true nu mu 0)
  · obtain ⟨p, q, h1, rfl, -⟩ := loop_off (fun b hb => by
      have := skew_pos_shifted hm hn b hb
      have h2 : b.1 ≠ b.2 := fun hc => hd ⟨b, hb, hc⟩
      omega) hL
    exact nodup_moveBy h1 (Verif.Tableaux.nodup_skewFrom true nu mu 0)

/-- C112: two shifted skew shapes have the same key exactly if they are translates of each other, along the diagonal or with no box on the
diagonal in both of them. -/
theorem C112_key_shifted {mu nu mu' nu' : List Nat} (hm : IsStrict mu) (hn : IsStrict nu) (hm' : IsStrict mu') (hn' : IsStrict nu')
    {fuel fuel' : Nat} {K K' : List (Nat × Nat)} (h : skewKey fuel mu nu true = some K) (h' : skewKey fuel' mu' nu' true = some K') :
    K = K' ↔ ∃ a b, IsTranslate a b (ShiftedDiagram mu \ ShiftedDiagram nu) (ShiftedDiagram mu' \ ShiftedDiagram nu') ∧
      (a = b ∨ OffDiagonal (ShiftedDiagram mu \ ShiftedDiagram nu) ∧ OffDiagonal (ShiftedDiagram mu' \ ShiftedDiagram nu')) := by
  obtain ⟨L, hL, rfl⟩ := Option.map_eq_some_iff.1 h
  obtain ⟨L', hL', rfl⟩ := Option.map_eq_some_iff.1 h'
  rw [sort_eq_iff (shifted_nodup hm hn hL) (shifted_nodup hm' hn' hL'), ← skew_set_shifted hm hn, ← skew_set_shifted hm' hn']
  have hS := skew_pos_shifted hm hn
  have hS' := skew_pos_shifted hm' hn'
  have off : ∀ {S : List (Nat × Nat)}, (∀ b ∈ S, 0 < b.1 ∧ b.1 ≤ b.2) → (¬ ∃ b ∈ S, b.1 = b.2) → ∀ b ∈ S, 0 < b.1 ∧ b.1 < b.2 := by
    intro S h1 h2 b hb
    have := h1 b hb
    have h3 : b.1 ≠ b.2 := fun hc => h2 ⟨b, hb, hc⟩
    omega
  by_cases hd : ∃ b ∈ skew mu nu true, b.1 = b.2
  · by_cases hd' : ∃ b ∈ skew mu' nu' true, b.1 = b.2
    · rw [on_iff hS hS' hd hd' hL hL']
      constructor
      · rintro ⟨a, ht⟩
        exact ⟨a, a, ht, .inl rfl⟩
      · rintro ⟨a, b, ht, rfl | ⟨ho, -⟩⟩
        · exact ⟨a, ht⟩
        · obtain ⟨x, hx, he⟩ := hd
          exact absurd he (ho x hx)
    · refine iff_of_false (mixed_ne hS (off hS' hd') hd hL hL') ?_
      obtain ⟨x, hx, he⟩ := hd
      rintro ⟨a, b, ht, rfl | ⟨ho, -⟩⟩
      · obtain ⟨y, hy, h1, h2⟩ := ht.1 x hx
        exact hd' ⟨y, hy, by omega⟩
      · exact ho x hx he
  · by_cases hd' : ∃ b ∈ skew mu' nu' true, b.1 = b.2
    · refine iff_of_false (fun hc => mixed_ne hS' (off hS hd) hd' hL' hL (fun b => (hc b).symm)) ?_
      obtain ⟨x, hx, he⟩ := hd'
      rintro ⟨a, b, ht, rfl | ⟨-, ho⟩⟩
      · obtain ⟨y, hy, h1, h2⟩ := ht.2 x hx
        exact hd ⟨y, hy, by omega⟩
      · exact ho x hx he
    · rw [off_iff (off hS hd) (off hS' hd') hL hL']
      constructor
      · rintro ⟨a, b, ht⟩
        exact ⟨a, b, ht, .inr ⟨fun x hx he => hd ⟨x, hx, he⟩, fun x hx he => hd' ⟨x, hx, he⟩⟩⟩
      · rintro ⟨a, b, ht, -⟩
        exact ⟨a, b, ht⟩

example : IsPartition [4, 4, 3] ∧ IsPartition [4, 2, 2] ∧ skewKey 20 [4, 4, 3] [4, 2, 2] false = some [(1, 1), (1, 2), (2, 1)] ∧
    skewKey 20 [2, 1] [] false = some [(1, 1), (1, 2), (2, 1)] ∧ skewKey 20 [4, 4] [4, 4] false = some [] := by
  refine ⟨⟨by decide, by decide⟩, ⟨by decide, by decide⟩, by decide +kernel, by decide +kernel, by decide +kernel⟩

/-- On the diagonal and off the diagonal. -/
example : IsStrict [5, 3] ∧ IsStrict [5, 2] ∧ skewKey 20 [5, 3] [5, 2] true = some [(1, 2)] ∧ skewKey 20 [5, 1] [5] true = some [(1, 1)] ∧
    skewKey 20 [4] [3] true = some [(1, 2)] ∧ skewKey 20 [4, 1] [3] true = some [(1, 3), (2, 1)] ∧
    skewKey 20 [6, 4, 1] [6, 3] true = some [(1, 3), (2, 1)] := by
  refine ⟨⟨by decide, by decide⟩, ⟨by decide, by decide⟩, by decide +kernel, by decide +kernel, by decide +kernel, by decide +kernel, by decide +kernel⟩

end Verif.Partition
