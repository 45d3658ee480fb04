import Verif.Lemmas.AtomsWords
import Verif.Lemmas.PermAll

/-! # Atoms of involutions: the lists of blocks -/

namespace Verif.Perm
open Verif.PermSpec
attribute [-simp] List.getD_eq_getElem?_getD
attribute [local irreducible] mul s inverse identity len mod act demazure SPerm.call sFun invStep

variable {x y : SPerm} {T : Int → Int → Prop}

/-- `v, m` is a block with two elements. -/
def Fst (y : SPerm) (T : Int → Int → Prop) (v m : Int) : Prop := (m < y.call m ∧ -m < y.call m ∧ v = y.call m) ∨ T v (-m)

/-- `v` is in the block that ends with `m`. -/
def Own (y : SPerm) (T : Int → Int → Prop) (v m : Int) : Prop := v = m ∨ Fst y T v m

theorem Fst.end (hm : Mat y T) {v m : Int} (h : Fst y T v m) : IsEnd y T m := by
  rcases h with ⟨h1, h2, h3⟩ | h
  · exact hm.end_pair h1 h2
  · have := hm.end_big h; rwa [neg_neg] at this

theorem Fst.pos (hm : Mat y T) {v m : Int} (h : Fst y T v m) : 0 < v ∧ m < v := by
  rcases h with ⟨h1, h2, h3⟩ | h
  · omega
  · have := hm.neg _ _ h; omega

theorem Fst.not_end (hm : Mat y T) (hy : ∀ a, y.call (y.call a) = a) {v m : Int} (h : Fst y T v m) : ¬ IsEnd y T v := by
  rintro ⟨⟨-, h4, -⟩, -⟩
  rcases h with ⟨h1, h2, h3⟩ | h
  · rw [h3, hy] at h4; omega
  · have := hm.neg _ _ h; omega

theorem Fst.uniq (hm : Mat y T) {v v' m : Int} (h : Fst y T v m) (h' : Fst y T v' m) : v = v' := by
  have hn := (call_odd y).neg m
  rcases h with ⟨h1, h2, h3⟩ | h <;> rcases h' with ⟨h1', h2', h3'⟩ | h'
  · omega
  · have := hm.neg _ _ h'; omega
  · have := hm.neg _ _ h; omega
  · have := hm.uniq _ _ _ _ h h'; omega

theorem Own.abs (hm : Mat y T) (hy : ∀ a, y.call (y.call a) = a) {v v' m m' : Int} (h1 : IsEnd y T m) (h2 : IsEnd y T m')
    (h3 : Own y T v m) (h4 : Own y T v' m') (h : v.natAbs = v'.natAbs) : v = v' ∧ m = m' := by
  obtain ⟨⟨a1, a2, a3⟩, a4⟩ := h1
  obtain ⟨⟨b1, b2, b3⟩, b4⟩ := h2
  have hn := (call_odd y).neg
  have n1 := hn m
  have n2 := hn m'
  have n3 := hn v
  have n4 := hn v'
  have i1 := hy m
  have i2 := hy m'
  have hv : v = v' ∨ v = -v' := by omega
  rcases h3 with h3 | ⟨c1, c2, c3⟩ | h3 <;> rcases h4 with h4 | ⟨d1, d2, d3⟩ | h4
  · subst h3; subst h4
    rcases hv with hv | hv
    · omega
    · rw [hv] at a2 a3 n1; omega
  · subst h3
    rw [← d3] at i2
    rcases hv with hv | hv
    · rw [hv] at a2; omega
    · rw [hv, n4] at a3; omega
  · subst h3
    have := hm.neg _ _ h4
    rcases hv with hv | hv
    · rw [hv] at a2; omega
    · exact absurd (by rw [hv, neg_neg]; exact h4) (a4 (-m'))
  · subst h4
    rw [← c3] at i1
    rcases hv with hv | hv
    · rw [hv] at i1; omega
    · rw [show v' = -v by omega, n3] at b3; omega
  · have : v = v' := by omega
    rw [← c3] at i1; rw [← d3] at i2
    rw [this] at i1; omega
  · have h5 := hm.neg _ _ h4
    have : v = v' := by omega
    rw [← c3, this] at i1; omega
  · subst h4
    have := hm.neg _ _ h3
    rcases hv with hv | hv
    · rw [hv] at this; omega
    · exact absurd (by rw [show -v' = v by omega]; exact h3) (b4 (-m))
  · have h5 := hm.neg _ _ h3
    have : v = v' := by omega
    rw [← d3, ← this] at i2; omega
  · have h5 := hm.neg _ _ h3
    have h6 := hm.neg _ _ h4
    have := hm.uniq _ _ _ _ h3 h4
    omega

theorem Own.cover (hm : Mat y T) (hy : ∀ a, y.call (y.call a) = a) {v : Int} (hv : 0 < v) (hv' : v.natAbs ≤ y.rank) :
    ∃ e m, IsEnd y T m ∧ Own y T e m ∧ e.natAbs = v.natAbs ∧ m.natAbs ≤ y.rank := by
  have hn := (call_odd y).neg v
  have hbd := (call_odd y).bound v hv'
  by_cases h1 : v ≤ y.call v
  · exact ⟨v, v, hm.end_pos hv h1, .inl rfl, rfl, hv'⟩
  by_cases h2 : -v < y.call v
  · have h3 : Fst y T v (y.call v) := .inl ⟨by rw [hy]; omega, by rw [hy]; omega, by rw [hy]⟩
    exact ⟨v, y.call v, h3.end hm, .inr h3, rfl, hbd⟩
  by_cases ht : ∃ b, T v b
  · obtain ⟨b, hb⟩ := ht
    have h3 : Fst y T v (-b) := .inr (by rwa [neg_neg])
    refine ⟨v, -b, h3.end hm, .inr h3, rfl, ?_⟩
    by_contra hc
    have := (call_odd y).out b (by omega)
    have := hm.neg _ _ hb
    omega
  · refine ⟨-v, -v, ⟨⟨by omega, by omega, by omega⟩, fun b hb => ht ⟨b, by rwa [neg_neg] at hb⟩⟩, .inl rfl, by omega, by omega⟩

/-! ### lists -/

/-- The integers from `-n` to `n`. -/
def span (n : Nat) : List Int := (List.range (2 * n + 1)).map (fun k : Nat => (k : Int) - n)

theorem mem_span {n : Nat} {v : Int} : v ∈ span n ↔ v.natAbs ≤ n := by
  rw [span, List.mem_map]
  constructor
  · rintro ⟨k, hk, rfl⟩
    rw [List.mem_range] at hk; omega
  · intro h
    exact ⟨(v + n).toNat, List.mem_range.2 (by omega), by omega⟩

theorem sorted_span (n : Nat) : (span n).Pairwise (· < ·) := by
  rw [span, List.pairwise_map]
  exact List.pairwise_lt_range.imp (by intro a b h; omega)

open scoped Classical in
/-- The last elements of the blocks. -/
noncomputable def ends (y : SPerm) (T : Int → Int → Prop) : List Int := (span y.rank).filter (fun m => IsEnd y T m)

open scoped Classical in
/-- The first element of the block that ends with `m`, if there are two. -/
noncomputable def pre (y : SPerm) (T : Int → Int → Prop) (m : Int) : List Int :=
  if h : ∃ v, Fst y T v m then [h.choose] else []

/-- The block that ends with `m`. -/
noncomputable def blk (y : SPerm) (T : Int → Int → Prop) (m : Int) : List Int := pre y T m ++ [m]

/-- The blocks in increasing order of the last elements. -/
noncomputable def gline (y : SPerm) (T : Int → Int → Prop) : List Int := (ends y T).flatMap (blk y T)

theorem mem_ends {m : Int} : m ∈ ends y T ↔ m.natAbs ≤ y.rank ∧ IsEnd y T m := by
  rw [ends, List.mem_filter, mem_span]; simp

theorem sorted_ends : (ends y T).Pairwise (· < ·) := (sorted_span _).filter _

theorem pre_of_fst (hm : Mat y T) {v m : Int} (h : Fst y T v m) : pre y T m = [v] := by
  have h' : ∃ v, Fst y T v m := ⟨v, h⟩
  rw [pre, dif_pos h', h'.choose_spec.uniq hm h]

theorem pre_of_not {m : Int} (h : ∀ v, ¬ Fst y T v m) : pre y T m = [] := by
  rw [pre, dif_neg (by push Not; exact h)]

theorem mem_blk (hm : Mat y T) {v m : Int} : v ∈ blk y T m ↔ Own y T v m := by
  rw [blk, List.mem_append, List.mem_singleton, Own, or_comm]
  by_cases h : ∃ v, Fst y T v m
  · obtain ⟨w, hw⟩ := h
    rw [pre_of_fst hm hw, List.mem_singleton]
    constructor
    · rintro (h | rfl)
      · exact .inl h
      · exact .inr hw
    · rintro (h | h)
      · exact .inl h
      · exact .inr (h.uniq hm hw)
  · push Not at h
    rw [pre_of_not h]
    simp [h v]

theorem blk_nodup (hm : Mat y T) (hy : ∀ a, y.call (y.call a) = a) {m : Int} (he : IsEnd y T m) : ((blk y T m).map Int.natAbs).Nodup := by
  by_cases h : ∃ v, Fst y T v m
  · obtain ⟨w, hw⟩ := h
    rw [blk, pre_of_fst hm hw]
    have : w.natAbs ≠ m.natAbs := fun e => by
      have := (Own.abs hm hy he he (.inr hw) (.inl rfl) e).1
      exact hw.not_end hm hy (this ▸ he)
    simpa using this
  · push Not at h
    rw [blk, pre_of_not h]; simp

theorem abs_gline (hm : Mat y T) (hy : ∀ a, y.call (y.call a) = a) :
    ((gline y T).map Int.natAbs).Perm (List.range' 1 y.rank) := by
  have hbound : ∀ v m, m.natAbs ≤ y.rank → Own y T v m → 1 ≤ v.natAbs ∧ v.natAbs ≤ y.rank ∨ m = 0 := by
    intro v m h1 h2
    by_cases h0 : m = 0
    · exact .inr h0
    left
    rcases h2 with h2 | ⟨h2, h3, h4⟩ | h2
    · subst h2; omega
    · have := (call_odd y).bound m h1; omega
    · have := hm.neg _ _ h2; omega
  rw [gline, List.map_flatMap]
  refine (List.perm_ext_iff_of_nodup ?_ List.nodup_range').2 (fun k => ?_)
  · rw [List.nodup_flatMap]
    refine ⟨fun m h => blk_nodup hm hy (mem_ends.1 h).2, ?_⟩
    refine (sorted_ends (y := y) (T := T)).imp_of_mem ?_
    intro m m' h1 h2 hlt k hk hk'
    obtain ⟨v, hv, rfl⟩ := List.mem_map.1 hk
    obtain ⟨v', hv', e⟩ := List.mem_map.1 hk'
    have := (Own.abs hm hy (mem_ends.1 h1).2 (mem_ends.1 h2).2 ((mem_blk hm).1 hv) ((mem_blk hm).1 hv') e.symm).2
    omega
  · rw [List.mem_flatMap, List.mem_range'_1]
    constructor
    · rintro ⟨m, h1, h2⟩
      obtain ⟨v, hv, rfl⟩ := List.mem_map.1 h2
      obtain ⟨h3, h4⟩ := mem_ends.1 h1
      have := h4.1.1
      rcases hbound v m h3 ((mem_blk hm).1 hv) with h | h
      · omega
      · omega
    · intro h
      obtain ⟨e, m, h1, h2, h3, h4⟩ := Own.cover hm hy (v := (k : Int)) (by omega) (by omega)
      exact ⟨m, mem_ends.2 ⟨h4, h1⟩, List.mem_map.2 ⟨e, (mem_blk hm).2 h2, by omega⟩⟩

theorem length_gline (hm : Mat y T) (hy : ∀ a, y.call (y.call a) = a) : (gline y T).length = y.rank := by
  have := (abs_gline hm hy).length_eq
  simpa using this

theorem isOneline_gline (hm : Mat y T) (hy : ∀ a, y.call (y.call a) = a) : isOneline (gline y T) = true := by
  rw [isOneline_iff, length_gline hm hy]
  have key : ∀ k, (∃ a ∈ gline y T, a.natAbs = k) ↔ 1 ≤ k ∧ k ≤ y.rank := fun k => by
    have := (abs_gline hm hy).mem_iff (a := k)
    rw [List.mem_map, List.mem_range'_1] at this
    rw [this]; omega
  exact ⟨fun k hk => (key _).2 (by omega), fun a ha => (key _).1 ⟨a, ha, rfl⟩⟩

theorem position_of {A B : List Int} {a : Int} {u : SPerm} (h : construct (A ++ a :: B) = some u) :
    (inverse u).call a = (A.length : Int) + 1 := by
  rw [← construct_at h, inverse_call]

theorem gline_split {E1 E2 : List Int} {m : Int} (h : ends y T = E1 ++ m :: E2) :
    gline y T = E1.flatMap (blk y T) ++ pre y T m ++ m :: E2.flatMap (blk y T) := by
  rw [gline, h]; simp [blk]

theorem gline_gm (hm : Mat y T) (hy : ∀ a, y.call (y.call a) = a) :
    ∃ u, construct (gline y T) = some u ∧ u.rank ≤ y.rank ∧ GM (inverse u) y T := by
  obtain ⟨u, hu, hr, -⟩ := construct_of_isOneline (isOneline_gline hm hy)
  rw [length_gline hm hy] at hr
  refine ⟨u, hu, hr, ?_⟩
  have hpos : ∀ E1 E2 m, ends y T = E1 ++ m :: E2 →
      (inverse u).call m = ((E1.flatMap (blk y T)).length : Int) + (pre y T m).length + 1 := by
    intro E1 E2 m h
    rw [gline_split h] at hu
    rw [position_of hu]; push_cast [List.length_append]; ring
  have hfst : ∀ v m, Fst y T v m → m.natAbs ≤ y.rank → (inverse u).call v + 1 = (inverse u).call m ∧ 0 < (inverse u).call v := by
    intro v m h hb
    obtain ⟨E1, E2, h1⟩ := List.append_of_mem (mem_ends.2 ⟨hb, h.end hm⟩)
    have h2 := hpos _ _ _ h1
    rw [gline_split h1, pre_of_fst hm h] at hu
    rw [pre_of_fst hm h] at h2
    have h3 := position_of (A := E1.flatMap (blk y T)) (a := v) (B := m :: E2.flatMap (blk y T)) (u := u) (by simpa using hu)
    rw [h2, h3, List.length_singleton]
    omega
  have hout : ∀ m, IsEnd y T m → y.rank < m.natAbs → 0 < m ∧ (inverse u).call m = m := by
    intro m h hb
    have h1 := (call_odd y).out m hb
    have h2 := h.1
    unfold IsMin at h2
    refine ⟨by omega, ?_⟩
    have : u.call m = m := (call_odd u).out m (by omega)
    rw [← this, inverse_call, this]
  have hin : ∀ m, m.natAbs ≤ y.rank → (inverse u).call m ≤ y.rank := by
    intro m hb
    by_contra hc
    have := (call_odd u).out ((inverse u).call m) (by omega)
    rw [call_inverse] at this
    omega
  refine ⟨hm, fun m h => ?_, fun a h1 h2 => ?_, fun a b h => ?_, fun m m' h h' hlt => ?_⟩
  · by_cases hb : m.natAbs ≤ y.rank
    · obtain ⟨E1, E2, h1⟩ := List.append_of_mem (mem_ends.2 ⟨hb, h⟩)
      rw [hpos _ _ _ h1]; omega
    · have := hout m h (by omega); omega
  · refine hfst _ a (.inl ⟨h1, h2, rfl⟩) ?_
    by_contra hc
    have := (call_odd y).out a (by omega)
    omega
  · refine hfst a (-b) (.inr (by rwa [neg_neg])) ?_
    by_contra hc
    have := (call_odd y).out b (by omega)
    have := hm.neg _ _ h
    omega
  · by_cases hb' : m'.natAbs ≤ y.rank
    · by_cases hb : m.natAbs ≤ y.rank
      · obtain ⟨E1, E2, h1⟩ := List.append_of_mem (mem_ends.2 ⟨hb, h⟩)
        have hs := sorted_ends (y := y) (T := T)
        have hmem := mem_ends.2 ⟨hb', h'⟩
        rw [h1] at hs hmem
        have hmem2 : m' ∈ E2 := by
          rcases List.mem_append.1 hmem with hc | hc
          · have := (List.pairwise_append.1 hs).2.2 m' hc m (by simp); omega
          · rcases List.mem_cons.1 hc with hc | hc
            · omega
            · exact hc
        obtain ⟨E3, E4, h3⟩ := List.append_of_mem hmem2
        have h4 : ends y T = (E1 ++ m :: E3) ++ m' :: E4 := by rw [h1, h3]; simp
        rw [hpos _ _ _ h1, hpos _ _ _ h4, List.flatMap_append, List.flatMap_cons, List.length_append, List.length_append,
          show blk y T m = pre y T m ++ [m] from rfl, List.length_append, List.length_singleton]
        omega
      · have := hout m h (by omega); omega
    · have h2 := hout m' h' (by omega)
      by_cases hb : m.natAbs ≤ y.rank
      · have := hin m hb; omega
      · have := hout m h (by omega); omega

/-! ### uniqueness -/

theorem GM.own (h : GM x y T) (hy : ∀ a, y.call (y.call a) = a) {v : Int} (hv : 0 < x.call v) : ∃ m, IsEnd y T m ∧ Own y T v m := by
  have hn := (call_odd x).neg v
  have hv0 : v ≠ 0 := fun e => by rw [e, (call_odd x).zero] at hv; omega
  rcases lt_or_ge v 0 with hs | hs
  · rcases h.kind hy (v := -v) (by omega) with ⟨a1, a2, a3⟩ | ⟨a1, a2, a3, a4, a5⟩ | ⟨a1, a2, a3, a4, a5⟩ | ⟨b, a1, a2, a3, a4, a5, a6, a7⟩
    · omega
    · omega
    · rw [neg_neg] at a5; exact ⟨v, a5, .inl rfl⟩
    · omega
  · rcases h.kind hy (v := v) (by omega) with ⟨a1, a2, a3⟩ | ⟨a1, a2, a3, a4, a5⟩ | ⟨a1, a2, a3, a4, a5⟩ | ⟨b, a1, a2, a3, a4, a5, a6, a7⟩
    · exact ⟨v, a3, .inl rfl⟩
    · exact ⟨y.call v, a5, .inr (.inl ⟨by rw [hy]; omega, by rw [hy]; omega, by rw [hy]⟩)⟩
    · omega
    · exact ⟨-b, a7, .inr (.inr (by rwa [neg_neg]))⟩

theorem GM.fst (h : GM x y T) {v m : Int} (hf : Fst y T v m) : x.call v + 1 = x.call m ∧ 0 < x.call v := by
  rcases hf with ⟨h1, h2, h3⟩ | h1
  · rw [h3]; exact h.block m h1 h2
  · have := h.tblock _ _ h1; rwa [neg_neg] at this

theorem GM.unique_aux {x' : SPerm} (h : GM x y T) (h' : GM x' y T) (hy : ∀ a, y.call (y.call a) = a) (p : Nat) :
    ∀ v, x.call v = p → 0 < p → x'.call v = p := by
  induction p using Nat.strong_induction_on with
  | _ p ih =>
    intro v hv hp
    have back : ∀ g, 0 < x'.call g → x'.call g < p → x.call g = x'.call g := by
      intro g h1 h2
      obtain ⟨f, hf⟩ := (call_odd x).surj_on (x'.call g)
      have := ih (x'.call g).toNat (by omega) f (by omega) (by omega)
      have := (call_odd x').inj f g (by omega)
      rw [← this, hf, this]
    obtain ⟨v', hv'⟩ := (call_odd x').surj_on p
    suffices v = v' by rw [this]; exact hv'
    obtain ⟨m, e1, o1⟩ := h.own hy (v := v) (by omega)
    obtain ⟨m', e2, o2⟩ := h'.own hy (v := v') (by omega)
    have xm : x.call m = p ∨ x.call m = p + 1 := by
      rcases o1 with o1 | o1
      · left; rw [← o1, hv]
      · right; have := (h.fst o1).1; omega
    have xm' : x'.call m' = p ∨ x'.call m' = p + 1 := by
      rcases o2 with o2 | o2
      · left; rw [← o2, hv']
      · right; have := (h'.fst o2).1; omega
    by_cases c1 : v = m ∧ ∃ f, Fst y T f m
    · obtain ⟨rfl, f, hf⟩ := c1
      have h1 := h.fst hf
      have h2 := h'.fst hf
      have := ih (p - 1) (by omega) f (by omega) (by omega)
      exact (call_odd x').inj _ _ (by omega)
    by_cases c2 : v' = m' ∧ ∃ f, Fst y T f m'
    · obtain ⟨rfl, f, hf⟩ := c2
      have h1 := h.fst hf
      have h2 := h'.fst hf
      have := back f (by omega) (by omega)
      exact (call_odd x).inj _ _ (by omega)
    rcases lt_trichotomy m m' with hlt | heq | hlt
    · exfalso
      have h1 := h'.order m m' e1 e2 hlt
      have h2 := h'.pos m e1
      by_cases hc : x'.call m < p
      · have := back m h2 hc; omega
      · have h3 : m = v' := (call_odd x').inj _ _ (by omega)
        rcases o2 with o2 | o2
        · omega
        · exact o2.not_end h.mat hy (h3 ▸ e1)
    · subst heq
      rcases o1 with o1 | o1 <;> rcases o2 with o2 | o2
      · omega
      · exact absurd ⟨o1, _, o2⟩ c1
      · exact absurd ⟨o2, _, o1⟩ c2
      · exact o1.uniq h.mat o2
    · exfalso
      have h1 := h.order m' m e2 e1 hlt
      have h2 := h.pos m' e2
      by_cases hc : x.call m' < p
      · have := ih (x.call m').toNat (by omega) m' (by omega) (by omega); omega
      · have h3 : m' = v := (call_odd x).inj _ _ (by omega)
        rcases o1 with o1 | o1
        · omega
        · exact o1.not_end h.mat hy (h3 ▸ e2)

theorem GM.unique {x' : SPerm} (h : GM x y T) (h' : GM x' y T) (hy : ∀ a, y.call (y.call a) = a) : x = x' := by
  have key : ∀ v, 0 < x.call v → x.call v = x'.call v := by
    intro v hv
    have := h.unique_aux h' hy (x.call v).toNat v (by omega) (by omega)
    omega
  refine ext_call (fun v => ?_)
  rcases lt_trichotomy (x.call v) 0 with hv | hv | hv
  · have := key (-v) (by rw [(call_odd x).neg]; omega)
    rw [(call_odd x).neg, (call_odd x').neg] at this; omega
  · have : v = 0 := by
      by_contra hc
      exact (call_odd x).ne_zero hc hv
    rw [this, (call_odd x).zero, (call_odd x').zero]
  · exact key v hv

end Verif.Perm
