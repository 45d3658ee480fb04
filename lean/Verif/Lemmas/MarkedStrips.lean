import Verif.Lemmas.LayerGen
import Verif.Lemmas.Semistandard
import Verif.Model.Marked

/-!
Strips with their corners, for shifted and unshifted shapes: what the functions `_horizontal_strips`,
`_vertical_strips`, `_shifted_horizontal_strips` and `_shifted_vertical_strips` return.
-/

set_option linter.unusedSectionVars false

attribute [-simp] List.getD_eq_getElem?_getD

namespace Verif.Tableaux

open Tab Verif.Part Partition

/-- `mu/nu` may be filled with one letter that may (`row`) be repeated in rows, may (`col`) be repeated in columns and
may (`dg`) be on the diagonal. -/
structure StripOK (sh : Bool) (row col dg : Prop) (lam mu nu : List Nat) : Prop where
  shape : IsShape sh nu
  sub1 : shapeSet sh lam ⊆ shapeSet sh nu
  sub2 : shapeSet sh nu ⊆ shapeSet sh mu
  row : ∀ i j, (i, j) ∈ shapeSet sh mu → (i, j) ∉ shapeSet sh nu → (i, j + 1) ∈ shapeSet sh mu → row
  col : ∀ i j, (i, j) ∈ shapeSet sh mu → (i, j) ∉ shapeSet sh nu → (i + 1, j) ∈ shapeSet sh mu → col
  diag : ∀ i, (i, i) ∈ shapeSet sh mu → (i, i) ∉ shapeSet sh nu → dg

/-- The letter may also be put into the box `b` of `nu`. -/
structure CornerOK (sh : Bool) (row col dg : Prop) (lam mu nu : List Nat) (b : Nat × Nat) : Prop where
  mem : b ∈ shapeSet sh nu
  notMem : b ∉ shapeSet sh lam
  right : (b.1, b.2 + 1) ∉ shapeSet sh nu
  below : (b.1 + 1, b.2) ∉ shapeSet sh nu
  row : (b.1, b.2 + 1) ∈ shapeSet sh mu → row
  col : (b.1 + 1, b.2) ∈ shapeSet sh mu → col
  diag : b.1 = b.2 → dg

/-- A correct list of strips. -/
structure StripList (sh : Bool) (row col dg : Prop) (lam mu : List Nat) (strips : List Strip) : Prop where
  nodup : (strips.map Prod.fst).Nodup
  ok : ∀ s ∈ strips, StripOK sh row col dg lam mu s.1
  diff_nodup : ∀ s ∈ strips, s.2.1.Nodup
  corner_nodup : ∀ s ∈ strips, s.2.2.Nodup
  diff : ∀ s ∈ strips, ∀ b, b ∈ s.2.1 ↔ b ∈ shapeSet sh mu ∧ b ∉ shapeSet sh s.1
  corner : ∀ s ∈ strips, ∀ b, b ∈ s.2.2 ↔ CornerOK sh row col dg lam mu s.1 b
  complete : ∀ nu, StripOK sh row col dg lam mu nu → ∃ s ∈ strips, s.1 = nu

theorem isMove_iff {R : Rules} {lam mu nu : List Nat} {k : Nat} {S : Nat × Nat → Prop} :
    IsMove R lam k mu nu S ↔ StripOK R.sh (R.rowRep k) (R.colRep k) (R.diag k) lam mu nu ∧
      (∀ b, b ∈ shapeSet R.sh mu → b ∉ shapeSet R.sh nu → S b) ∧
      ∀ b, S b → (b ∈ shapeSet R.sh mu ∧ b ∉ shapeSet R.sh nu) ∨
        (R.sv = true ∧ CornerOK R.sh (R.rowRep k) (R.colRep k) (R.diag k) lam mu nu b) := by
  constructor
  · intro h
    refine ⟨⟨h.shape, h.sub1, h.sub2, ?_, ?_, ?_⟩, h.diff, ?_⟩
    · intro i j h1 h2 h3
      exact h.row i j (h.diff _ h1 h2) h3 (fun hc => h2 (shape_left h1 hc))
    · intro i j h1 h2 h3
      exact h.col i j (h.diff _ h1 h2) h3 (fun hc => h2 (shape_above h.shape h1 hc))
    · intro i h1 h2
      exact h.diag i (h.diff _ h1 h2)
    · rintro ⟨i, j⟩ hS
      by_cases hn : (i, j) ∈ shapeSet R.sh nu
      · obtain ⟨h1, h2, h3⟩ := h.corner i j hS hn
        exact Or.inr ⟨h1, hn, (h.inside _ hS).2, h2, h3, fun hr => h.row i j hS hr h2, fun hr => h.col i j hS hr h3,
          fun (e : i = j) => by subst e; exact h.diag i hS⟩
      · exact Or.inl ⟨(h.inside _ hS).1, hn⟩
  · rintro ⟨h, hd, hS⟩
    refine ⟨h.shape, h.sub1, h.sub2, hd, ?_, ?_, ?_, ?_, ?_⟩
    · intro b hb
      rcases hS b hb with ⟨h1, h2⟩ | ⟨_, hc⟩
      · exact ⟨h1, fun hl => h2 (h.sub1 hl)⟩
      · exact ⟨h.sub2 hc.mem, hc.notMem⟩
    · intro i j hb hn
      rcases hS _ hb with ⟨h1, h2⟩ | ⟨hsv, hc⟩
      · exact absurd hn h2
      · exact ⟨hsv, hc.right, hc.below⟩
    · intro i j hb h1 _
      rcases hS _ hb with ⟨g1, g2⟩ | ⟨_, hc⟩
      · exact h.row i j g1 g2 h1
      · exact hc.row h1
    · intro i j hb h1 _
      rcases hS _ hb with ⟨g1, g2⟩ | ⟨_, hc⟩
      · exact h.col i j g1 g2 h1
      · exact hc.col h1
    · intro i hb
      rcases hS _ hb with ⟨g1, g2⟩ | ⟨_, hc⟩
      · exact h.diag i g1 g2
      · exact hc.diag rfl

/-- The strips with their sets of boxes. -/
def movesOf (sv : Bool) (strips : List Strip) : List (List Nat × List (Nat × Nat)) :=
  strips.flatMap (fun s => (subsets s.2.1 s.2.2 sv).map (fun aug => (s.1, aug)))

theorem mem_movesOf {sv : Bool} {strips : List Strip} {m : List Nat × List (Nat × Nat)} :
    m ∈ movesOf sv strips ↔ ∃ s ∈ strips, ∃ aug ∈ subsets s.2.1 s.2.2 sv, (s.1, aug) = m := by
  simp only [movesOf, List.mem_flatMap, List.mem_map]

variable {sh : Bool} {row col dg : Prop} {lam mu : List Nat} {strips : List Strip}

theorem StripList.inj (h : StripList sh row col dg lam mu strips) {s s' : Strip} (hs : s ∈ strips) (hs' : s' ∈ strips)
    (he : s.1 = s'.1) : s = s' :=
  List.inj_on_of_nodup_map h.nodup hs hs' he

theorem StripList.disj (h : StripList sh row col dg lam mu strips) {s : Strip} (hs : s ∈ strips) :
    ∀ b ∈ s.2.2, b ∉ s.2.1 := fun b hb hd => ((h.diff s hs b).1 hd).2 ((h.corner s hs b).1 hb).mem

theorem StripList.subsets_nodup (h : StripList sh row col dg lam mu strips) {s : Strip} (hs : s ∈ strips) (sv : Bool) :
    (subsets s.2.1 s.2.2 sv).Nodup := by
  unfold subsets
  split
  · refine List.nodup_range.map_on ?_
    intro v hv v' hv' he
    rw [List.mem_range] at hv hv'
    exact subsetBits_mem _ _ (h.corner_nodup s hs) (h.disj hs) v v' hv hv' (by rw [he]; simp)
  · simp

theorem StripList.subsets_ext (h : StripList sh row col dg lam mu strips) {s : Strip} (hs : s ∈ strips) {sv : Bool}
    {a a' : List (Nat × Nat)} (ha : a ∈ subsets s.2.1 s.2.2 sv) (ha' : a' ∈ subsets s.2.1 s.2.2 sv)
    (he : ∀ b, b ∈ a ↔ b ∈ a') : a = a' := by
  unfold subsets at ha ha'
  split at ha
  · rename_i hsv
    rw [if_pos hsv] at ha'
    obtain ⟨v, hv, rfl⟩ := List.mem_map.1 ha
    obtain ⟨v', hv', rfl⟩ := List.mem_map.1 ha'
    rw [List.mem_range] at hv hv'
    rw [subsetBits_mem _ _ (h.corner_nodup s hs) (h.disj hs) v v' hv hv' he]
  · rename_i hsv
    rw [if_neg hsv] at ha'
    simp at ha ha'
    rw [ha, ha']

theorem StripList.subsets_aug (h : StripList sh row col dg lam mu strips) {s : Strip} (hs : s ∈ strips) {sv : Bool}
    {a : List (Nat × Nat)} (ha : a ∈ subsets s.2.1 s.2.2 sv) : Aug sv s a := by
  unfold subsets at ha
  split at ha
  · rename_i hsv
    obtain ⟨v, _, rfl⟩ := List.mem_map.1 ha
    obtain ⟨h1, h2, h3⟩ := subsetBits_spec s.2.2 s.2.1 (h.diff_nodup s hs) v
    exact ⟨h1, h2, fun b hb => (h3 b hb).imp id (fun h => ⟨hsv, h⟩)⟩
  · simp at ha
    subst ha
    exact ⟨h.diff_nodup s hs, fun b hb => hb, fun b hb => Or.inl hb⟩

theorem subsets_surj (diff corners : List (Nat × Nat)) (sv : Bool) (S : Nat × Nat → Prop) (h1 : ∀ b ∈ diff, S b)
    (h2 : ∀ b, S b → b ∈ diff ∨ (sv = true ∧ b ∈ corners)) : ∃ a ∈ subsets diff corners sv, ∀ b, b ∈ a ↔ S b := by
  classical
  cases sv with
  | true =>
    obtain ⟨v, hv, hmem⟩ := subsetBits_surj S corners diff
    refine ⟨subsetBits diff v corners, ?_, fun b => ?_⟩
    · rw [subsets, if_pos rfl]
      exact List.mem_map.2 ⟨v, List.mem_range.2 hv, rfl⟩
    · rw [hmem]
      constructor
      · rintro (h | h)
        · exact h1 b h
        · exact h.2
      · intro h
        exact (h2 b h).imp id (fun h' => ⟨h'.2, h⟩)
  | false =>
    refine ⟨diff, by simp [subsets], fun b => ⟨h1 b, fun h => ?_⟩⟩
    rcases h2 b h with h | h
    · exact h
    · simp at h

theorem StripList.lists {R : Rules} {k : Nat} {lam mu : List Nat}
    (h : StripList R.sh (R.rowRep k) (R.colRep k) (R.diag k) lam mu strips) :
    ListsMoves R lam k mu (movesOf R.sv strips) := by
  constructor
  · intro m hmm
    obtain ⟨s, hs, aug, ha, rfl⟩ := mem_movesOf.1 hmm
    have ha := h.subsets_aug hs ha
    refine ⟨ha.nodup, isMove_iff.2 ⟨h.ok s hs, fun b h1 h2 => ha.diff b ((h.diff s hs b).2 ⟨h1, h2⟩), fun b hb => ?_⟩⟩
    rcases ha.mem b hb with hb | ⟨h1, h2⟩
    · exact Or.inl ((h.diff s hs b).1 hb)
    · exact Or.inr ⟨h1, (h.corner s hs b).1 h2⟩
  · intro nu S hS
    obtain ⟨h1, h2, h3⟩ := isMove_iff.1 hS
    obtain ⟨s, hs, rfl⟩ := h.complete nu h1
    obtain ⟨a, ha, hab⟩ := subsets_surj s.2.1 s.2.2 R.sv S (fun b hb => by
      have := (h.diff s hs b).1 hb
      exact h2 b this.1 this.2) (fun b hb => (h3 b hb).imp (h.diff s hs b).2 (fun h' => ⟨h'.1, (h.corner s hs b).2 h'.2⟩))
    exact ⟨(s.1, a), mem_movesOf.2 ⟨s, hs, a, ha, rfl⟩, rfl, hab⟩
  · intro m hmm m' hmm' he hb
    obtain ⟨s, hs, a, ha, rfl⟩ := mem_movesOf.1 hmm
    obtain ⟨s', hs', a', ha', rfl⟩ := mem_movesOf.1 hmm'
    have := h.inj hs hs' he
    subst this
    rw [h.subsets_ext hs ha ha' hb]

theorem StripList.movesOf_nodup (h : StripList sh row col dg lam mu strips) (sv : Bool) : (movesOf sv strips).Nodup := by
  rw [movesOf, List.nodup_flatMap]
  refine ⟨fun s hs => (h.subsets_nodup hs sv).map (fun a b hab => (Prod.mk_inj.1 hab).2), ?_⟩
  have h0 : strips.Pairwise (fun a b => a.1 ≠ b.1) := List.pairwise_map.1 h.nodup
  refine h0.imp (fun hne => ?_)
  simp only [Function.onFun, List.disjoint_left, List.mem_map]
  rintro x ⟨a, _, rfl⟩ ⟨b, _, hb⟩
  exact hne (Prod.mk_inj.1 hb).1.symm

/-! ### `_horizontal_strips` -/

theorem stripOK_horizontal {lam mu nu : List Nat} (hm : IsPartition mu) :
    StripOK false True False True lam mu nu ↔ IsStrip mu lam nu := by
  constructor
  · intro h
    have hn : IsPartition nu := h.shape
    have h1 := shapeSet_subset.1 h.sub1
    have h2 := shapeSet_subset.1 h.sub2
    refine ⟨hn, fun i => ⟨?_, h2 i⟩⟩
    rw [coreRow]
    refine max_le ?_ (h1 i)
    by_contra hc
    have hmi := pairwise_ge_iff.1 hm.1 i
    refine h.col (i + 1) (nu.getD i 0 + 1) ?_ ?_ ?_
    all_goals
      simp only [shapeSet, Bool.false_eq_true, if_false, mem_diagram, Nat.add_sub_cancel]
      omega
  · rintro ⟨hn, h⟩
    have hc : ∀ i, mu.getD (i + 1) 0 ≤ nu.getD i 0 := fun i => le_trans (le_max_left _ _) (h i).1
    refine ⟨hn, shapeSet_subset.2 (fun i => le_trans (le_max_right _ _) (h i).1), shapeSet_subset.2 (fun i => (h i).2),
      fun _ _ _ _ _ => trivial, ?_, fun _ _ _ => trivial⟩
    intro i j h1 h2 h3
    simp only [shapeSet, Bool.false_eq_true, if_false, mem_diagram, Nat.add_sub_cancel] at h1 h2 h3
    have := hc (i - 1)
    rw [show i - 1 + 1 = i by omega] at this
    omega

theorem cornerOK_horizontal {lam mu nu : List Nat} {b : Nat × Nat} (h : IsStrip mu lam nu) :
    CornerOK false True False True lam mu nu b ↔ ∃ i, coreRow mu lam i < nu.getD i 0 ∧ b = (i + 1, nu.getD i 0) := by
  obtain ⟨r, c⟩ := b
  constructor
  · rintro ⟨h1, h2, h3, h4, _, h5, _⟩
    have h5 : ¬ ((r + 1, c) ∈ shapeSet false mu) := h5
    simp only [shapeSet, Bool.false_eq_true, if_false, mem_diagram, Nat.add_sub_cancel] at *
    have e : nu.getD (r - 1) 0 = c := by omega
    refine ⟨r - 1, ?_, by rw [e]; ext <;> simp; omega⟩
    rw [coreRow, show r - 1 + 1 = r by omega]
    omega
  · rintro ⟨i, hi, he⟩
    obtain ⟨rfl, rfl⟩ := Prod.mk_inj.1 he
    rw [coreRow] at hi
    have h2 := pairwise_ge_iff.1 h.1.1 i
    have h3 := (h.2 (i + 1)).2
    refine ⟨?_, ?_, ?_, ?_, fun _ => trivial, ?_, fun _ => trivial⟩
    all_goals
      simp only [shapeSet, Bool.false_eq_true, if_false, mem_diagram, Nat.add_sub_cancel]
      omega

theorem horizontalStrips_list {lam mu : List Nat} (hm : IsPartition mu) (hl : IsPartition lam) :
    StripList false True False True lam mu (horizontalStrips mu lam) := by
  by_cases hc : contains mu lam = true
  · obtain ⟨-, h1, h2, h3⟩ := horizontalStrips_spec hm hl hc
    refine ⟨h1, fun s hs => (stripOK_horizontal hm).2 (h2 s hs).strip, fun s hs => (h2 s hs).diff_nodup,
      fun s hs => (h2 s hs).corner_nodup, fun s hs => (h2 s hs).diff_mem, fun s hs b => ?_,
      fun nu hnu => h3 nu ((stripOK_horizontal hm).1 hnu)⟩
    rw [cornerOK_horizontal (h2 s hs).strip]
    exact (h2 s hs).corner_mem b
  · have he : horizontalStrips mu lam = [] := by
      rw [horizontalStrips, horizontalStrips?, if_neg hc]; rfl
    rw [he]
    refine ⟨by simp, by simp, by simp, by simp, by simp, by simp, fun nu hnu => ?_⟩
    exact absurd ((contains_iff hl.2).2 (shapeSet_subset.1 (hnu.sub1.trans hnu.sub2))) hc

/-! ### `_vertical_strips` -/

theorem mem_shapeSet_transpose {mu : List Nat} (hm : IsPartition mu) {i j : Nat} :
    (i, j) ∈ shapeSet false (transpose mu) ↔ (j, i) ∈ shapeSet false mu := by
  simp only [shapeSet, Bool.false_eq_true, if_false]
  exact transpose_diagram hm i j

theorem stripOK_transpose {lam mu nu : List Nat} (hl : IsPartition lam) (hm : IsPartition mu) (hn : IsPartition nu)
    (h : StripOK false row col dg lam mu nu) :
    StripOK false col row dg (transpose lam) (transpose mu) (transpose nu) := by
  refine ⟨transpose_isPartition hn, ?_, ?_, ?_, ?_, ?_⟩
  · rintro ⟨i, j⟩ hb
    rw [mem_shapeSet_transpose hl] at hb
    rw [mem_shapeSet_transpose hn]
    exact h.sub1 hb
  · rintro ⟨i, j⟩ hb
    rw [mem_shapeSet_transpose hn] at hb
    rw [mem_shapeSet_transpose hm]
    exact h.sub2 hb
  · intro i j
    rw [mem_shapeSet_transpose hm, mem_shapeSet_transpose hn, mem_shapeSet_transpose hm]
    exact h.col j i
  · intro i j
    rw [mem_shapeSet_transpose hm, mem_shapeSet_transpose hn, mem_shapeSet_transpose hm]
    exact h.row j i
  · intro i
    rw [mem_shapeSet_transpose hm, mem_shapeSet_transpose hn]
    exact h.diag i

theorem cornerOK_transpose {lam mu nu : List Nat} (hl : IsPartition lam) (hm : IsPartition mu) (hn : IsPartition nu)
    {i j : Nat} : CornerOK false col row dg (transpose lam) (transpose mu) (transpose nu) (i, j) ↔
      CornerOK false row col dg lam mu nu (j, i) := by
  constructor
  · rintro ⟨h1, h2, h3, h4, h5, h6, h7⟩
    simp only [mem_shapeSet_transpose hm, mem_shapeSet_transpose hn, mem_shapeSet_transpose hl] at *
    exact ⟨h1, h2, h4, h3, h6, h5, fun e => h7 e.symm⟩
  · rintro ⟨h1, h2, h3, h4, h5, h6, h7⟩
    constructor
    all_goals simp only [mem_shapeSet_transpose hm, mem_shapeSet_transpose hn, mem_shapeSet_transpose hl]
    · exact h1
    · exact h2
    · exact h4
    · exact h3
    · exact h6
    · exact h5
    · exact fun e => h7 e.symm

theorem verticalStrips_list {lam mu : List Nat} (hm : IsPartition mu) (hl : IsPartition lam) :
    StripList false False True True lam mu (verticalStrips mu lam) := by
  have H := horizontalStrips_list (transpose_isPartition hm) (transpose_isPartition hl)
  have hshape : ∀ s ∈ horizontalStrips (transpose mu) (transpose lam), IsPartition s.1 := fun s hs => (H.ok s hs).shape
  have hok : ∀ s ∈ horizontalStrips (transpose mu) (transpose lam), StripOK false False True True lam mu (transpose s.1) := by
    intro s hs
    have := stripOK_transpose (transpose_isPartition hl) (transpose_isPartition hm) (hshape s hs) (H.ok s hs)
    rwa [transpose_transpose hl, transpose_transpose hm] at this
  have hswap : ∀ (l : List (Nat × Nat)) i j, (i, j) ∈ l.map Prod.swap ↔ (j, i) ∈ l := by
    intro l i j
    rw [List.mem_map]
    constructor
    · rintro ⟨⟨a, b⟩, h1, h2⟩
      obtain ⟨rfl, rfl⟩ := Prod.mk_inj.1 h2
      exact h1
    · intro h
      exact ⟨(j, i), h, rfl⟩
  refine ⟨?_, ?_, ?_, ?_, ?_, ?_, ?_⟩
  · rw [verticalStrips, List.map_map]
    refine List.Nodup.map_on ?_ (List.Nodup.of_map _ H.nodup)
    intro s hs s' hs' he
    refine H.inj hs hs' ?_
    rw [← transpose_transpose (hshape s hs), ← transpose_transpose (hshape s' hs')]
    exact congrArg transpose he
  · intro s hs
    obtain ⟨s, hs', rfl⟩ := List.mem_map.1 hs
    clear hs
    have hs := hs'
    exact hok s hs
  · intro s hs
    obtain ⟨s, hs', rfl⟩ := List.mem_map.1 hs
    clear hs
    have hs := hs'
    exact (H.diff_nodup s hs).map Prod.swap_injective
  · intro s hs
    obtain ⟨s, hs', rfl⟩ := List.mem_map.1 hs
    clear hs
    have hs := hs'
    exact (H.corner_nodup s hs).map Prod.swap_injective
  · intro s hs
    obtain ⟨s, hs', rfl⟩ := List.mem_map.1 hs
    clear hs
    have hs := hs'
    rintro ⟨i, j⟩
    simp only
    rw [hswap, H.diff s hs, mem_shapeSet_transpose hm, mem_shapeSet_transpose (hshape s hs)]
  · intro s hs
    obtain ⟨s, hs', rfl⟩ := List.mem_map.1 hs
    clear hs
    have hs := hs'
    rintro ⟨i, j⟩
    simp only
    rw [hswap, H.corner s hs]
    have := cornerOK_transpose (row := False) (col := True) (dg := True) hl hm (transpose_isPartition (hshape s hs))
      (i := j) (j := i)
    rw [transpose_transpose (hshape s hs)] at this
    exact this
  · intro nu hnu
    have hn : IsPartition nu := hnu.shape
    obtain ⟨s, hs, he⟩ := H.complete (transpose nu) (stripOK_transpose hl hm hn hnu)
    refine ⟨_, List.mem_map.2 ⟨s, hs, rfl⟩, ?_⟩
    show transpose s.1 = nu
    rw [he, transpose_transpose hn]

/-! ### `_shifted_horizontal_strips` and `_shifted_vertical_strips` -/

/-- The `while level` loop: it lists the elements of `P`, by their size. -/
theorem levelLoop_spec {next : List (List Nat) → List (List Nat)} (record : List Nat → Strip) {P : List Nat → Prop}
    {c M : Nat} (hnil : next [] = []) (hnd : ∀ level, (next level).Nodup)
    (hstep : ∀ k level, (∀ nu, nu ∈ level ↔ P nu ∧ nu.sum = c + k) →
      ∀ nu, nu ∈ next level ↔ P nu ∧ nu.sum = c + (k + 1))
    (hM : ∀ nu, P nu → nu.sum ≤ M) (fuel : Nat) :
    ∀ (k : Nat) (level : List (List Nat)), level.Nodup → (∀ nu, nu ∈ level ↔ P nu ∧ nu.sum = c + k) →
      M + 1 < c + k + fuel → 1 ≤ fuel →
      ∃ nus : List (List Nat), levelLoop next record fuel level = some (nus.map record) ∧ nus.Nodup ∧
        ∀ nu, nu ∈ nus ↔ P nu ∧ c + k ≤ nu.sum := by
  have hempty : ∀ k, (∀ nu, ¬ (P nu ∧ nu.sum = c + k)) → ∀ d nu, ¬ (P nu ∧ nu.sum = c + (k + d)) := by
    intro k h d
    induction d with
    | zero => exact h
    | succ d ih =>
      intro nu hnu
      have := (hstep (k + d) [] (fun nu => ⟨fun h => by simp at h, fun h => absurd h (ih nu)⟩) nu).2 (by
        rw [Nat.add_assoc k d 1]; exact hnu)
      rw [hnil] at this
      simp at this
  induction fuel with
  | zero => intro k level _ _ _ h; omega
  | succ fuel ih =>
    intro k level hlnd hlev hf _
    rw [levelLoop]
    split
    · rename_i he
      rw [List.isEmpty_iff] at he
      subst he
      refine ⟨[], by simp, by simp, fun nu => ?_⟩
      constructor
      · intro h; simp at h
      · rintro ⟨h1, h2⟩
        exact absurd ⟨h1, by omega⟩ (hempty k (fun nu h => by have := (hlev nu).2 h; simp at this)
          (nu.sum - (c + k)) nu)
    · rename_i he
      obtain ⟨nu0, hnu0⟩ := List.exists_mem_of_ne_nil level (by simpa using he)
      rw [hlev] at hnu0
      have hle := hM nu0 hnu0.1
      obtain ⟨nus, h1, h2, h3⟩ := ih (k + 1) (next level) (hnd level) (hstep k level hlev) (by omega) (by omega)
      refine ⟨level ++ nus, by rw [h1]; simp, ?_, fun nu => ?_⟩
      · rw [List.nodup_append]
        refine ⟨hlnd, h2, ?_⟩
        rintro a ha b hb rfl
        rw [hlev] at ha
        rw [h3] at hb
        omega
      · rw [List.mem_append, hlev, h3]
        constructor
        · rintro (⟨h1, h2⟩ | ⟨h1, h2⟩)
          · exact ⟨h1, by omega⟩
          · exact ⟨h1, by omega⟩
        · rintro ⟨h1, h2⟩
          by_cases h : nu.sum = c + k
          · left; exact ⟨h1, h⟩
          · right; exact ⟨h1, by omega⟩

theorem inLevel_eq_core {mu core nu : List Nat} (hclen : core.length = mu.length) (h : InLevel mu core nu)
    (hs : nu.sum = core.sum) : nu = core := by
  by_contra hne
  have : ∃ i, core.getD i 0 ≠ nu.getD i 0 := by
    by_contra hall
    push Not at hall
    apply hne
    apply List.ext_getElem (by rw [h.1, hclen])
    intro i hi hi'
    rw [← List.getD_eq_getElem _ 0 hi, ← List.getD_eq_getElem _ 0 hi', hall]
  obtain ⟨i, hi⟩ := this
  have hlt : core.getD i 0 < nu.getD i 0 := by have := (h.2 i).1; omega
  have hin : i < nu.length := by
    by_contra hc
    rw [List.getD_eq_default nu 0 (by omega)] at hlt
    omega
  have h3 := sum_set nu i (core.getD i 0) hin
  have h4 := sum_getD_le (l := core) (l' := nu.set i (core.getD i 0))
    (by rw [hclen, List.length_set, h.1]) (fun j => by
      rw [getD_set _ _ _ _ hin]
      split
      · rename_i h; rw [h]
      · exact (h.2 j).1)
  omega

theorem dropZero_eq {nu : List Nat} (h : ∀ i, i + 1 < nu.length → 0 < nu.getD i 0) : dropZero nu = trim nu := by
  rw [dropZero]
  rcases List.eq_nil_or_concat nu with rfl | ⟨t, a, rfl⟩
  · simp [trim]
  · simp only [List.concat_eq_append] at *
    have ht : ∀ x ∈ t, 0 < x := by
      intro x hx
      obtain ⟨i, hi, rfl⟩ := List.mem_iff_getElem.1 hx
      have h2 := h i (by simp; omega)
      rwa [List.getD_append _ _ _ _ hi, List.getD_eq_getElem _ _ hi] at h2
    have hl : (t ++ [a]).getLastD 0 = a := by simp
    rw [hl]
    by_cases ha : a > 0
    · rw [if_pos ha, trim_of_pos]
      intro x hx
      rcases List.mem_append.1 hx with h | h
      · exact ht x h
      · simp at h; omega
    · have : a = 0 := by omega
      subst this
      rw [if_neg ha, List.dropLast_concat]
      have : trim (t ++ [0]) = trim t := by simp [trim]
      rw [this, trim_of_pos ht]

theorem mem_shiftedDiff {mu nu : List Nat} {b : Nat × Nat} :
    b ∈ shiftedDiff mu nu ↔ b ∈ shapeSet true mu ∧ b ∉ shapeSet true nu := by
  obtain ⟨i, j⟩ := b
  simp only [shiftedDiff, List.mem_flatMap, List.mem_range, List.mem_map, List.mem_range'_1, Prod.mk.injEq, shapeSet,
    if_true, mem_shiftedDiagram]
  constructor
  · rintro ⟨i', hi', j', hj', rfl, rfl⟩
    simp only [Nat.add_sub_cancel]
    omega
  · rintro ⟨⟨h1, h2, h3⟩, h4⟩
    refine ⟨i - 1, ?_, j - i, ?_, by omega, by omega⟩
    · by_contra hc
      rw [List.getD_eq_default mu 0 (by omega)] at h3
      omega
    · omega

theorem nodup_shiftedDiff (mu nu : List Nat) : (shiftedDiff mu nu).Nodup := by
  rw [shiftedDiff, List.nodup_flatMap]
  refine ⟨fun i _ => (List.nodup_range' _).map (by intro x y h; simpa using h), ?_⟩
  refine List.nodup_range.imp ?_
  intro a b hab
  simp only [Function.onFun, List.disjoint_left, List.mem_map]
  rintro x ⟨e, _, rfl⟩ ⟨e', _, h⟩
  simp at h
  omega

theorem shapeSet_trim (sh : Bool) (nu : List Nat) : shapeSet sh (trim nu) = shapeSet sh nu :=
  Set.Subset.antisymm (shapeSet_subset.2 fun i => by rw [getD_trim]) (shapeSet_subset.2 fun i => by rw [getD_trim])

/-- The general part of the two functions for shifted shapes. -/
theorem shifted_list {P : List Nat → Prop} {next : List (List Nat) → List (List Nat)}
    {core : List Nat} {corners : List Nat → List (Nat × Nat)} {mu lam : List Nat} {row col : Prop}
    (hclen : core.length = mu.length) (hPcore : P core) (hP : ∀ nu, P nu → InLevel mu core nu)
    (hnil : next [] = []) (hnd : ∀ level, (next level).Nodup)
    (hstep : ∀ k level, (∀ nu, nu ∈ level ↔ P nu ∧ nu.sum = core.sum + k) →
      ∀ nu, nu ∈ next level ↔ P nu ∧ nu.sum = core.sum + (k + 1))
    (hpos : ∀ nu, P nu → ∀ i, i + 1 < nu.length → 0 < nu.getD i 0)
    (hok : ∀ nu, P nu → StripOK true row col True lam mu (trim nu))
    (hok' : ∀ nu, StripOK true row col True lam mu nu → P (nu ++ List.replicate (mu.length - nu.length) 0))
    (hcnd : ∀ nu, (corners nu).Nodup)
    (hcor : ∀ nu, P nu → ∀ b, b ∈ corners (trim nu) ↔ CornerOK true row col True lam mu (trim nu) b) :
    ∃ strips, levelLoop next (fun nu => (dropZero nu, shiftedDiff mu nu, corners (dropZero nu))) (mu.sum + 2) [core] =
      some strips ∧ StripList true row col True lam mu strips := by
  have hinit : ∀ nu, nu ∈ [core] ↔ P nu ∧ nu.sum = core.sum + 0 := by
    intro nu
    rw [List.mem_singleton]
    constructor
    · rintro rfl; exact ⟨hPcore, rfl⟩
    · rintro ⟨h1, h2⟩
      exact inLevel_eq_core hclen (hP nu h1) h2
  obtain ⟨nus, h1, h2, h3⟩ := levelLoop_spec (fun nu => (dropZero nu, shiftedDiff mu nu, corners (dropZero nu)))
    hnil hnd hstep (M := mu.sum) (fun nu h => sum_getD_le (hP nu h).1 (fun i => ((hP nu h).2 i).2)) (mu.sum + 2) 0 [core]
    (by simp) hinit (by omega) (by omega)
  have h3' : ∀ nu, nu ∈ nus ↔ P nu := by
    intro nu
    rw [h3]
    refine ⟨fun h => h.1, fun h => ⟨h, ?_⟩⟩
    have := sum_getD_le (l := core) (l' := nu) (hclen.trans (hP nu h).1.symm) (fun i => ((hP nu h).2 i).1)
    omega
  have hdz : ∀ nu, nu ∈ nus → dropZero nu = trim nu := fun nu hnu => dropZero_eq (hpos nu ((h3' nu).1 hnu))
  refine ⟨_, h1, ?_, ?_, ?_, ?_, ?_, ?_, ?_⟩
  · rw [List.map_map]
    refine h2.map_on ?_
    intro x hx y hy hxy
    have hxy : dropZero x = dropZero y := hxy
    rw [hdz x hx, hdz y hy] at hxy
    have hx' := (hP x ((h3' x).1 hx)).1
    have hy' := (hP y ((h3' y).1 hy)).1
    apply List.ext_getElem (hx'.trans hy'.symm)
    intro i hi hi'
    rw [← List.getD_eq_getElem _ 0 hi, ← List.getD_eq_getElem _ 0 hi', ← getD_trim x, ← getD_trim y, hxy]
  · intro s hs
    obtain ⟨nu, hnu, rfl⟩ := List.mem_map.1 hs
    show StripOK true row col True lam mu (dropZero nu)
    rw [hdz nu hnu]
    exact hok nu ((h3' nu).1 hnu)
  · intro s hs
    obtain ⟨nu, hnu, rfl⟩ := List.mem_map.1 hs
    exact nodup_shiftedDiff _ _
  · intro s hs
    obtain ⟨nu, hnu, rfl⟩ := List.mem_map.1 hs
    exact hcnd _
  · intro s hs b
    obtain ⟨nu, hnu, rfl⟩ := List.mem_map.1 hs
    show b ∈ shiftedDiff mu nu ↔ _ ∧ b ∉ shapeSet true (dropZero nu)
    rw [hdz nu hnu, shapeSet_trim, mem_shiftedDiff]
  · intro s hs b
    obtain ⟨nu, hnu, rfl⟩ := List.mem_map.1 hs
    show b ∈ corners (dropZero nu) ↔ CornerOK true row col True lam mu (dropZero nu) b
    rw [hdz nu hnu]
    exact hcor nu ((h3' nu).1 hnu) b
  · intro nu hnu
    have hp := (h3' _).2 (hok' nu hnu)
    refine ⟨_, List.mem_map.2 ⟨_, hp, rfl⟩, ?_⟩
    show dropZero _ = nu
    rw [hdz _ hp]
    have : trim (nu ++ List.replicate (mu.length - nu.length) 0) = trim nu := by
      rw [trim, List.reverse_append, List.reverse_replicate]
      rw [trim]
      simp
    rw [this, trim_of_pos hnu.shape.pos]

theorem getD_pad (nu : List Nat) (n i : Nat) : (nu ++ List.replicate n 0).getD i 0 = nu.getD i 0 := by
  by_cases h : i < nu.length
  · rw [List.getD_append _ _ _ _ h]
  · rw [List.getD_append_right _ _ _ _ (by omega), List.getD_eq_default nu 0 (by omega)]
    by_cases h2 : i - nu.length < (List.replicate n 0).length
    · rw [List.getD_eq_getElem _ _ h2]; simp
    · rw [List.getD_eq_default _ _ (by omega)]

theorem length_le_of_le {mu nu : List Nat} (hn : ∀ a ∈ nu, 0 < a) (h : ∀ i, nu.getD i 0 ≤ mu.getD i 0) :
    nu.length ≤ mu.length := by
  by_contra hc
  have h5 := (getD_pos_iff hn mu.length).2 (by omega)
  have h6 := h mu.length
  rw [List.getD_eq_default mu 0 le_rfl] at h6
  omega

theorem isShape_trim {nu : List Nat} (h : ∀ i, 0 < nu.getD (i + 1) 0 → nu.getD (i + 1) 0 < nu.getD i 0) :
    IsShape true (trim nu) := by
  have hpw : nu.Pairwise (· ≥ ·) := by
    rw [pairwise_ge_iff]
    intro i
    have := h i
    omega
  refine isShape_of (trim_pos hpw) (fun i => ?_)
  rw [getD_trim, getD_trim]
  intro h0
  have := h i h0
  simp only [if_true]
  omega

theorem getD_shiftedHorizontalCore {mu lam : List Nat} (hm : ∀ a ∈ mu, 0 < a) (h : ∀ i, lam.getD i 0 ≤ mu.getD i 0) (i : Nat) :
    (shiftedHorizontalCore mu lam).getD i 0 =
      max (if 0 < mu.getD (i + 1) 0 then mu.getD (i + 1) 0 + 1 else 0) (lam.getD i 0) := by
  rw [shiftedHorizontalCore, getD_map_range]
  simp only [getD_pos_iff hm]
  have h1 := h i
  by_cases hi : i < mu.length
  · rw [if_pos hi]
    by_cases hl : i < lam.length
    · rw [if_pos hl]
    · rw [if_neg hl, List.getD_eq_default lam 0 (by omega)]; omega
  · rw [if_neg hi, if_neg (by omega)]
    rw [List.getD_eq_default mu 0 (by omega)] at h1
    omega

theorem shiftedHorizontalStrips_list {lam mu : List Nat} (hm : IsShape true mu) (hl : IsShape true lam) :
    ∃ strips, shiftedHorizontalStrips mu lam = some strips ∧ StripList true True False True lam mu strips := by
  have hmp := hm.pos
  have hstr : isStrictPartition mu = true := (isStrictPartition_iff mu).2 (show IsStrict mu from hm).1
  rw [shiftedHorizontalStrips, if_pos hstr]
  by_cases hc : contains mu lam = true
  · rw [if_pos hc]
    have hsub := (contains_iff hl.pos).1 hc
    have hcore := getD_shiftedHorizontalCore hmp hsub
    obtain ⟨core, hcd⟩ : ∃ core, shiftedHorizontalCore mu lam = core := ⟨_, rfl⟩
    have hclen : core.length = mu.length := by rw [← hcd]; simp [shiftedHorizontalCore]
    rw [hcd] at hcore ⊢
    have hmn : ∀ i, 0 < mu.getD (i + 1) 0 → mu.getD (i + 1) 0 + 1 ≤ mu.getD i 0 := fun i h => by
      simpa using hm.next i h
    have hdec : ∀ nu, InLevel mu core nu → ∀ i, 0 < nu.getD (i + 1) 0 → nu.getD (i + 1) 0 < nu.getD i 0 := by
      intro nu h i h0
      have h1 := (h.2 i).1
      have h2 := (h.2 (i + 1)).2
      rw [hcore, if_pos (by omega)] at h1
      omega
    refine shifted_list (P := InLevel mu core) (corners := fun nu => ((List.range nu.length).filter
      (fun i => decide (core.getD i 0 < nu.getD i 0))).map (fun i => (i + 1, i + nu.getD i 0)))
      hclen ⟨hclen, fun i => ⟨le_rfl, ?_⟩⟩ (fun _ h => h) ?_ ?_ ?_ ?_ ?_ ?_ ?_ ?_
    · rw [hcore]
      have := hsub i
      have := hmn i
      split <;> omega
    · simp [nextLevel]
    · intro level; exact List.nodup_dedup _
    · intro k level hlev nu
      exact mem_nextLevel hclen hlev nu
    · intro nu h i hi
      have h1 := (h.2 i).1
      rw [hcore, if_pos ((getD_pos_iff hmp _).2 (by rw [← h.1]; exact hi))] at h1
      omega
    · intro nu h
      have hrow : ∀ i, 0 < mu.getD (i + 1) 0 → mu.getD (i + 1) 0 + 1 ≤ nu.getD i 0 := by
        intro i hi
        have h1 := (h.2 i).1
        rw [hcore, if_pos hi] at h1
        omega
      refine ⟨isShape_trim (hdec nu h), ?_, ?_, fun _ _ _ _ _ => trivial, ?_, fun _ _ _ => trivial⟩
      · rw [shapeSet_trim]
        refine shapeSet_subset.2 (fun i => ?_)
        have h1 := (h.2 i).1
        rw [hcore] at h1
        omega
      · rw [shapeSet_trim]
        exact shapeSet_subset.2 (fun i => (h.2 i).2)
      · intro i j h1 h2 h3
        rw [shapeSet_trim] at h2
        simp only [shapeSet, if_true, mem_shiftedDiagram, Nat.add_sub_cancel] at h1 h2 h3
        have := hrow (i - 1)
        rw [show i - 1 + 1 = i by omega] at this
        omega
    · intro nu h
      have hs1 := shapeSet_subset.1 h.sub1
      have hs2 := shapeSet_subset.1 h.sub2
      have hlen := length_le_of_le h.shape.pos hs2
      refine ⟨by simp; omega, fun i => ?_⟩
      rw [getD_pad, hcore]
      refine ⟨max_le ?_ (hs1 i), hs2 i⟩
      split
      · rename_i hi
        by_contra hc'
        have hmi := hmn i hi
        refine h.col (i + 1) (i + 1 + nu.getD i 0 + (if nu.getD i 0 = 0 then 1 else 0)) ?_ ?_ ?_
        all_goals
          simp only [shapeSet, if_true, mem_shiftedDiagram, Nat.add_sub_cancel]
          split <;> omega
      · omega
    · intro nu
      refine (List.nodup_range.filter _).map ?_
      intro x y h
      simp at h; omega
    · rintro nu h ⟨r, c⟩
      have hsh := isShape_trim (hdec nu h)
      simp only [List.mem_map, List.mem_filter, List.mem_range, decide_eq_true_eq, Prod.mk.injEq, ← getD_pos_iff hsh.pos,
        getD_trim, hcore]
      constructor
      · rintro ⟨i, ⟨h1, h2⟩, rfl, rfl⟩
        have h3 := (h.2 (i + 1)).2
        have h4 := hdec nu h i
        refine ⟨?_, ?_, ?_, ?_, fun _ => trivial, ?_, fun _ => trivial⟩
        all_goals
          simp only [shapeSet, if_true, mem_shiftedDiagram, Nat.add_sub_cancel, getD_trim]
          split at h2 <;> omega
      · rintro ⟨h1, h2, h3, h4, _, h5, _⟩
        have h5 : ¬ ((r + 1, c) ∈ shapeSet true mu) := h5
        simp only [shapeSet, if_true, mem_shiftedDiagram, Nat.add_sub_cancel, getD_trim] at *
        have h6 := (h.2 (r - 1)).1
        rw [hcore] at h6
        refine ⟨r - 1, ⟨by omega, ?_⟩, by omega, by omega⟩
        rw [show r - 1 + 1 = r by omega] at h6 ⊢
        split at h6
        · rename_i h7
          rw [if_pos h7]; omega
        · rename_i h7
          rw [if_neg h7]; omega
  · rw [if_neg hc]
    refine ⟨[], rfl, by simp, by simp, by simp, by simp, by simp, by simp, fun nu hnu => ?_⟩
    exact absurd ((contains_iff hl.pos).2 (shapeSet_subset.1 (hnu.sub1.trans hnu.sub2))) hc

theorem getD_shiftedVerticalCore {mu lam : List Nat} (h : ∀ i, lam.getD i 0 ≤ mu.getD i 0) (i : Nat) :
    (shiftedVerticalCore mu lam).getD i 0 = max (mu.getD i 0 - 1) (lam.getD i 0) := by
  rw [shiftedVerticalCore, getD_map_range]
  have h1 := h i
  by_cases hi : i < mu.length
  · rw [if_pos hi]
    by_cases hl : i < lam.length
    · rw [if_pos hl]
    · rw [if_neg hl, List.getD_eq_default lam 0 (by omega)]; omega
  · rw [if_neg hi]
    rw [List.getD_eq_default mu 0 (by omega)] at *
    omega

theorem shiftedVerticalNext_step {mu core : List Nat} (hclen : core.length = mu.length)
    (hcdec : ∀ i, i + 1 < mu.length → core.getD (i + 1) 0 < core.getD i 0) (k : Nat) (level : List (List Nat))
    (hlev : ∀ nu, nu ∈ level ↔ (InLevel mu core nu ∧ ∀ i, i + 1 < mu.length → nu.getD (i + 1) 0 < nu.getD i 0) ∧
      nu.sum = core.sum + k) (nu : List Nat) :
    nu ∈ shiftedVerticalNext mu level ↔
      (InLevel mu core nu ∧ ∀ i, i + 1 < mu.length → nu.getD (i + 1) 0 < nu.getD i 0) ∧
      nu.sum = core.sum + (k + 1) := by
  rw [shiftedVerticalNext, List.mem_dedup]
  simp only [List.mem_flatMap, List.mem_range, List.mem_map, List.mem_filter, decide_eq_true_eq, hlev]
  constructor
  · rintro ⟨i, hi, nu', ⟨⟨⟨⟨h1, h2⟩, h2'⟩, h3⟩, h4, h5⟩, rfl⟩
    have hg := fun j => getD_set nu' i j (nu'.getD i 0 + 1) (by omega)
    refine ⟨⟨⟨by simpa using h1, fun j => ?_⟩, fun j hj => ?_⟩, ?_⟩
    · rw [hg]
      have := h2 j
      split
      · rename_i h; subst h; omega
      · exact this
    · rw [hg, hg]
      have h6 := h2' j hj
      by_cases e1 : j + 1 = i
      · subst e1
        rw [if_pos rfl, if_neg (by omega)]
        rw [Nat.add_sub_cancel] at h5
        omega
      · rw [if_neg e1]
        split
        · rename_i h; subst h; omega
        · exact h6
    · have := sum_set nu' i (nu'.getD i 0 + 1) (by omega)
      omega
  · rintro ⟨⟨⟨h1, h2⟩, h2'⟩, h3⟩
    obtain ⟨i0, hi0, hlt0⟩ := exists_lt_of_sum_lt (l := core) (l' := nu) (by omega) (by omega)
    obtain ⟨i, hi, hlt, hmax⟩ : ∃ i, i < mu.length ∧ core.getD i 0 < nu.getD i 0 ∧
        ∀ j, i < j → nu.getD j 0 ≤ core.getD j 0 := by
      classical
      refine ⟨Nat.findGreatest (fun i => core.getD i 0 < nu.getD i 0) mu.length, ?_, ?_, ?_⟩
      · have hp := Nat.findGreatest_spec (P := fun i => core.getD i 0 < nu.getD i 0) (n := mu.length) (by omega : i0 ≤ _) hlt0
        by_contra hc
        rw [List.getD_eq_default nu 0 (by omega)] at hp
        omega
      · exact Nat.findGreatest_spec (P := fun i => core.getD i 0 < nu.getD i 0) (n := mu.length) (by omega : i0 ≤ _) hlt0
      · intro j hj
        by_cases hjl : j ≤ mu.length
        · have := Nat.findGreatest_is_greatest hj hjl
          omega
        · rw [List.getD_eq_default nu 0 (by omega)]; omega
    have hg := fun v j => getD_set nu i v j (by omega)
    refine ⟨i, hi, nu.set i (nu.getD i 0 - 1), ⟨⟨⟨⟨by simpa using h1, fun j => ?_⟩, fun j hj => ?_⟩, ?_⟩, ?_, ?_⟩, ?_⟩
    · rw [hg]
      have := h2 j
      split
      · rename_i h; subst h; omega
      · exact this
    · rw [hg, hg]
      have h6 := h2' j hj
      by_cases e1 : j + 1 = i
      · subst e1
        rw [if_pos rfl, if_neg (by omega)]
        omega
      · rw [if_neg e1]
        split
        · rename_i h; subst h
          have h7 := hmax (j + 1) (by omega)
          have h8 := hcdec j hj
          omega
        · exact h6
    · have := sum_set nu i (nu.getD i 0 - 1) (by omega)
      omega
    · rw [hg, if_pos rfl]
      have := h2 i
      omega
    · by_cases h0 : i = 0
      · exact Or.inl h0
      · right
        rw [hg, hg, if_pos rfl, if_neg (by omega)]
        have := h2' (i - 1) (by omega)
        rw [show i - 1 + 1 = i by omega] at this
        omega
    · rw [hg, if_pos rfl, List.set_set]
      apply List.ext_getElem (by simp)
      intro j hj hj'
      rw [List.getElem_set]
      split
      · rename_i h; subst h
        rw [← List.getD_eq_getElem _ 0 hj']; omega
      · rfl

theorem shiftedVerticalStrips_list {lam mu : List Nat} (hm : IsShape true mu) (hl : IsShape true lam) :
    ∃ strips, shiftedVerticalStrips mu lam = some strips ∧ StripList true False True True lam mu strips := by
  have hmp := hm.pos
  have hstr : isStrictPartition mu = true := (isStrictPartition_iff mu).2 (show IsStrict mu from hm).1
  rw [shiftedVerticalStrips, if_pos hstr]
  by_cases hc : contains mu lam = true
  · rw [if_pos hc]
    have hsub := (contains_iff hl.pos).1 hc
    have hcore := getD_shiftedVerticalCore hsub
    obtain ⟨core, hcd⟩ : ∃ core, shiftedVerticalCore mu lam = core := ⟨_, rfl⟩
    have hclen : core.length = mu.length := by rw [← hcd]; simp [shiftedVerticalCore]
    rw [hcd] at hcore ⊢
    have hmn : ∀ i, 0 < mu.getD (i + 1) 0 → mu.getD (i + 1) 0 + 1 ≤ mu.getD i 0 := fun i h => by
      simpa using hm.next i h
    have hln : ∀ i, 0 < lam.getD (i + 1) 0 → lam.getD (i + 1) 0 + 1 ≤ lam.getD i 0 := fun i h => by
      simpa using hl.next i h
    have hcdec : ∀ i, i + 1 < mu.length → core.getD (i + 1) 0 < core.getD i 0 := by
      intro i hi
      rw [hcore, hcore]
      have h1 := (getD_pos_iff hmp _).2 hi
      have h2 := hmn i h1
      have h3 := hln i
      omega
    have hdec : ∀ nu, (InLevel mu core nu ∧ ∀ i, i + 1 < mu.length → nu.getD (i + 1) 0 < nu.getD i 0) →
        ∀ i, 0 < nu.getD (i + 1) 0 → nu.getD (i + 1) 0 < nu.getD i 0 := by
      intro nu h i h0
      refine h.2 i ?_
      rw [← getD_pos_iff hmp]
      have := (h.1.2 (i + 1)).2
      omega
    refine shifted_list (P := fun nu => InLevel mu core nu ∧ ∀ i, i + 1 < mu.length → nu.getD (i + 1) 0 < nu.getD i 0)
      (corners := fun nu => ((List.range nu.length).filter (fun i => decide (core.getD i 0 < nu.getD i 0 ∧
        (i = nu.length - 1 ∨ 1 + nu.getD (i + 1) 0 < nu.getD i 0)))).map (fun i => (i + 1, i + nu.getD i 0)))
      hclen ⟨⟨hclen, fun i => ⟨le_rfl, ?_⟩⟩, hcdec⟩ (fun _ h => h.1) ?_ ?_ ?_ ?_ ?_ ?_ ?_ ?_
    · rw [hcore]
      have := hsub i
      omega
    · simp [shiftedVerticalNext]
    · intro level; exact List.nodup_dedup _
    · intro k level hlev nu
      exact shiftedVerticalNext_step hclen hcdec k level hlev nu
    · intro nu h i hi
      have := h.2 i (by rw [← h.1.1]; exact hi)
      omega
    · intro nu h
      have hrow : ∀ i, mu.getD i 0 - 1 ≤ nu.getD i 0 := by
        intro i
        have h1 := (h.1.2 i).1
        rw [hcore] at h1
        omega
      refine ⟨isShape_trim (hdec nu h), ?_, ?_, ?_, fun _ _ _ _ _ => trivial, fun _ _ _ => trivial⟩
      · rw [shapeSet_trim]
        refine shapeSet_subset.2 (fun i => ?_)
        have h1 := (h.1.2 i).1
        rw [hcore] at h1
        omega
      · rw [shapeSet_trim]
        exact shapeSet_subset.2 (fun i => (h.1.2 i).2)
      · intro i j h1 h2 h3
        rw [shapeSet_trim] at h2
        simp only [shapeSet, if_true, mem_shiftedDiagram, Nat.add_sub_cancel] at h1 h2 h3
        have := hrow (i - 1)
        omega
    · intro nu h
      have hs1 := shapeSet_subset.1 h.sub1
      have hs2 := shapeSet_subset.1 h.sub2
      have hlen := length_le_of_le h.shape.pos hs2
      have hlow : ∀ i, mu.getD i 0 - 1 ≤ nu.getD i 0 := by
        intro i
        by_contra hc'
        refine h.row (i + 1) (i + 1 + nu.getD i 0) ?_ ?_ ?_
        all_goals
          simp only [shapeSet, if_true, mem_shiftedDiagram, Nat.add_sub_cancel]
          omega
      refine ⟨⟨by simp; omega, fun i => ?_⟩, fun i hi => ?_⟩
      · rw [getD_pad, hcore]
        exact ⟨max_le (hlow i) (hs1 i), hs2 i⟩
      · rw [getD_pad, getD_pad]
        have h1 := (getD_pos_iff hmp _).2 hi
        have h2 := hmn i h1
        have h3 := hlow i
        have h4 := h.shape.next i
        simp only [if_true] at h4
        omega
    · intro nu
      refine (List.nodup_range.filter _).map ?_
      intro x y h
      simp at h; omega
    · rintro nu h ⟨r, c⟩
      have hsh := isShape_trim (hdec nu h)
      have hlast : ∀ i, 0 < nu.getD i 0 → (i = (trim nu).length - 1 ↔ nu.getD (i + 1) 0 = 0) := by
        intro i hi
        have h1 := getD_pos_iff hsh.pos i
        have h2 := getD_pos_iff hsh.pos (i + 1)
        rw [getD_trim] at h1 h2
        omega
      simp only [List.mem_map, List.mem_filter, List.mem_range, decide_eq_true_eq, Prod.mk.injEq, ← getD_pos_iff hsh.pos,
        getD_trim, hcore]
      constructor
      · rintro ⟨i, ⟨h1, h2, h3⟩, rfl, rfl⟩
        rw [hlast i h1] at h3
        have h5 := (h.1.2 i).2
        refine ⟨?_, ?_, ?_, ?_, ?_, fun _ => trivial, fun _ => trivial⟩
        all_goals
          simp only [shapeSet, if_true, mem_shiftedDiagram, Nat.add_sub_cancel, getD_trim]
          omega
      · rintro ⟨h1, h2, h3, h4, h5, _, _⟩
        have h5 : ¬ ((r, c + 1) ∈ shapeSet true mu) := h5
        simp only [shapeSet, if_true, mem_shiftedDiagram, Nat.add_sub_cancel, getD_trim] at *
        have h6 := (h.1.2 (r - 1)).2
        refine ⟨r - 1, ⟨by omega, by omega, ?_⟩, by omega, by omega⟩
        have h7 := hdec nu h (r - 1)
        rw [hlast _ (by omega)]
        rw [show r - 1 + 1 = r by omega] at h7 ⊢
        omega
  · rw [if_neg hc]
    refine ⟨[], rfl, by simp, by simp, by simp, by simp, by simp, by simp, fun nu hnu => ?_⟩
    exact absurd ((contains_iff hl.pos).2 (shapeSet_subset.1 (hnu.sub1.trans hnu.sub2))) hc

/-- Leaving out the diagonal. -/
theorem diagonalFilter_list {lam mu : List Nat} {strips : List Strip} (dp : Bool)
    (h : StripList sh row col True lam mu strips) :
    StripList sh row col (dp = true) lam mu (diagonalFilter dp strips) := by
  cases dp with
  | true =>
    have : (true = true) = True := by simp
    rw [this]
    exact h
  | false =>
    have hF : (false = true) = False := by simp
    rw [hF, diagonalFilter]
    simp only [Bool.false_eq_true, if_false]
    have hmem : ∀ s, s ∈ (strips.filter (fun s => !s.2.1.any (fun b => decide (b.1 = b.2)))).map
        (fun s => ((s.1, s.2.1, s.2.2.filter (fun b => decide (b.1 ≠ b.2))) : Strip)) → ∃ t ∈ strips,
        (∀ b ∈ t.2.1, b.1 ≠ b.2) ∧ s = (t.1, t.2.1, t.2.2.filter (fun b => decide (b.1 ≠ b.2))) := by
      intro s hs
      obtain ⟨t, ht, rfl⟩ := List.mem_map.1 hs
      rw [List.mem_filter] at ht
      refine ⟨t, ht.1, ?_, rfl⟩
      have := ht.2
      simp only [Bool.not_eq_true', List.any_eq_false, decide_eq_true_eq] at this
      exact this
    have hweak : ∀ nu, StripOK sh row col False lam mu nu → StripOK sh row col True lam mu nu :=
      fun nu h => ⟨h.shape, h.sub1, h.sub2, h.row, h.col, fun _ _ _ => trivial⟩
    refine ⟨?_, ?_, ?_, ?_, ?_, ?_, ?_⟩
    · rw [List.map_map]
      exact (List.Sublist.map Prod.fst List.filter_sublist).nodup h.nodup
    · intro s hs
      obtain ⟨t, ht, hd, rfl⟩ := hmem s hs
      have := h.ok t ht
      exact ⟨this.shape, this.sub1, this.sub2, this.row, this.col, fun i h1 h2 =>
        hd (i, i) ((h.diff t ht _).2 ⟨h1, h2⟩) rfl⟩
    · intro s hs
      obtain ⟨t, ht, hd, rfl⟩ := hmem s hs
      exact h.diff_nodup t ht
    · intro s hs
      obtain ⟨t, ht, hd, rfl⟩ := hmem s hs
      exact (h.corner_nodup t ht).filter _
    · intro s hs
      obtain ⟨t, ht, hd, rfl⟩ := hmem s hs
      exact h.diff t ht
    · intro s hs b
      obtain ⟨t, ht, hd, rfl⟩ := hmem s hs
      simp only
      rw [List.mem_filter, h.corner t ht, decide_eq_true_eq]
      constructor
      · rintro ⟨h1, h2⟩
        exact ⟨h1.mem, h1.notMem, h1.right, h1.below, h1.row, h1.col, h2⟩
      · intro h1
        exact ⟨⟨h1.mem, h1.notMem, h1.right, h1.below, h1.row, h1.col, fun _ => trivial⟩, h1.diag⟩
    · intro nu hnu
      obtain ⟨s, hs, rfl⟩ := h.complete nu (hweak nu hnu)
      refine ⟨_, List.mem_map.2 ⟨s, List.mem_filter.2 ⟨hs, ?_⟩, rfl⟩, rfl⟩
      simp only [Bool.not_eq_true', List.any_eq_false, decide_eq_true_eq]
      rintro ⟨i, j⟩ hb (rfl : i = j)
      have := (h.diff s hs _).1 hb
      exact hnu.diag i this.1 this.2

end Verif.Tableaux
