import Verif.Lemmas.MrppComm
import Verif.Lemmas.MarkedGen
import Verif.Lemmas.Rpp
import Verif.Model.MarkedRpp

/-! Marked reverse plane partitions: the generated set, its weights and counts. -/

attribute [-simp] List.getD_eq_getElem?_getD

namespace Verif.Tableaux

open Tab Verif.Part Partition Symm

/-- Weakly increasing rows and columns in the letters `1' < 1 < 2' < 2 < ...`; `dn` says if unprimed letters may be on
the diagonal. -/
def mrppRules (dn : Bool) : Rules where
  sh := true
  sv := false
  val := (markRules true false true).val
  rowRep _ := True
  colRep _ := True
  diag k := dn = true ∨ k % 2 = 1

theorem mrppRules_inj (dn : Bool) : Function.Injective (mrppRules dn).val := markRules_inj true false true

theorem mrppRules_even (dn : Bool) (i : Nat) : (mrppRules dn).val (2 * i + 2) = (i : Int) + 1 :=
  markRules_val_even true false true i

theorem mrppRules_odd (dn : Bool) (i : Nat) : (mrppRules dn).val (2 * i + 1) = -((i : Int) + 1) :=
  markRules_val_odd true false true i

/-- The strips for an unprimed letter. -/
def mrppH (dn : Bool) (mu : List Nat) : List (List Nat × List (Nat × Nat)) :=
  ((shiftedRppHorizontalStrips mu).getD []).filter (fun s => dn || !meetsDiagonal s.2)

/-- The strips for a primed letter. -/
def mrppV (mu : List Nat) : List (List Nat × List (Nat × Nat)) := (shiftedRppVerticalStrips mu).getD []

theorem meetsDiagonal_false {diff : List (Nat × Nat)} : meetsDiagonal diff = false ↔ ∀ b ∈ diff, b.1 ≠ b.2 := by
  simp [meetsDiagonal]

variable {dn : Bool} {lam mu : List Nat}

theorem mem_mrppV (hm : IsStrict mu) (s : List Nat × List (Nat × Nat)) :
    s ∈ mrppV mu ↔ IsStrict s.1 ∧ (∀ j, s.1.getD j 0 ≤ mu.getD j 0) ∧ s.2 = skew mu s.1 true := by
  obtain ⟨l, h1, h2, _⟩ := shiftedRppVerticalStrips_spec hm
  rw [mrppV, h1, Option.getD_some, h2]

theorem nodup_mrppV (hm : IsStrict mu) : (mrppV mu).Nodup := by
  obtain ⟨l, h1, _, h2⟩ := shiftedRppVerticalStrips_spec hm
  rw [mrppV, h1, Option.getD_some]
  exact h2

theorem mem_mrppH (hm : IsStrict mu) (s : List Nat × List (Nat × Nat)) :
    s ∈ mrppH dn mu ↔ IsStrict s.1 ∧ (∀ j, s.1.getD j 0 ≤ mu.getD j 0) ∧ s.2 = skew mu s.1 true ∧ DiagOk dn mu s.1 := by
  obtain ⟨l, h1, h2, _⟩ := shiftedRppHorizontalStrips_spec hm
  rw [mrppH, h1, Option.getD_some, List.mem_filter, h2]
  constructor
  · rintro ⟨⟨a, b, c⟩, d⟩
    refine ⟨a, b, c, ?_⟩
    simp only [Bool.or_eq_true, Bool.not_eq_true', meetsDiagonal_false] at d
    rcases d with d | d
    · exact Or.inl d
    · right
      intro e he
      rw [List.mem_toFinset, ← c] at he
      exact d e he
  · rintro ⟨a, b, c, d⟩
    refine ⟨⟨a, b, c⟩, ?_⟩
    simp only [Bool.or_eq_true, Bool.not_eq_true', meetsDiagonal_false]
    rcases d with d | d
    · exact Or.inl d
    · right
      intro e he
      rw [c] at he
      exact d e (List.mem_toFinset.2 he)

theorem nodup_mrppH (hm : IsStrict mu) : (mrppH dn mu).Nodup := by
  obtain ⟨l, h1, _, h2⟩ := shiftedRppHorizontalStrips_spec hm
  rw [mrppH, h1, Option.getD_some]
  exact h2.filter _

/-- The moves for the letters `1', 1, 2', 2, ...`. -/
def mrppMoves (dn : Bool) (lam : List Nat) (k : Nat) (mu : List Nat) : List (List Nat × List (Nat × Nat)) :=
  (if k % 2 = 0 then mrppH dn mu else mrppV mu).filter (fun s => contains s.1 lam)

theorem mrppMoves_even (k : Nat) : mrppMoves dn lam (2 * k + 2) mu = (mrppH dn mu).filter (fun s => contains s.1 lam) := by
  rw [mrppMoves, if_pos (by omega)]

theorem mrppMoves_odd (k : Nat) : mrppMoves dn lam (2 * k + 1) mu = (mrppV mu).filter (fun s => contains s.1 lam) := by
  rw [mrppMoves, if_neg (by omega)]

theorem mem_mrppMoves (hl : IsStrict lam) (hm : IsStrict mu) (k : Nat) (s : List Nat × List (Nat × Nat)) :
    s ∈ mrppMoves dn lam k mu ↔ IsStrict s.1 ∧ (∀ j, lam.getD j 0 ≤ s.1.getD j 0) ∧ (∀ j, s.1.getD j 0 ≤ mu.getD j 0) ∧
      s.2 = skew mu s.1 true ∧ (k % 2 = 0 → DiagOk dn mu s.1) := by
  rw [mrppMoves, List.mem_filter, contains_iff hl.2]
  by_cases hk : k % 2 = 0
  · rw [if_pos hk, mem_mrppH hm]
    exact ⟨fun ⟨⟨a, b, c, d⟩, e⟩ => ⟨a, e, b, c, fun _ => d⟩, fun ⟨a, e, b, c, d⟩ => ⟨⟨a, b, c, d hk⟩, e⟩⟩
  · rw [if_neg hk, mem_mrppV hm]
    exact ⟨fun ⟨⟨a, b, c⟩, e⟩ => ⟨a, e, b, c, fun h => absurd h hk⟩, fun ⟨a, e, b, c, _⟩ => ⟨⟨a, b, c⟩, e⟩⟩

theorem mrppMoves_lists (hl : IsStrict lam) (k : Nat) (mu : List Nat) (hm : IsStrict mu) :
    ListsMoves (mrppRules dn) lam (k + 1) mu (mrppMoves dn lam (k + 1) mu) := by
  constructor
  · intro m hmm
    obtain ⟨h1, h2, h3, h4, h5⟩ := (mem_mrppMoves hl hm (k + 1) m).1 hmm
    have hb : ∀ b, b ∈ m.2 ↔ b ∈ shapeSet true mu ∧ b ∉ shapeSet true m.1 := by
      intro b; rw [h4]; exact mem_skew_shape
    refine ⟨?_, h1, shapeSet_subset.2 h2, shapeSet_subset.2 h3, fun b p q => (hb b).2 ⟨p, q⟩, ?_, ?_,
      fun _ _ _ _ _ => trivial, fun _ _ _ _ _ => trivial, ?_⟩
    · rw [h4]
      exact nodup_skewFrom _ _ _ _
    · intro b p
      have p := (hb b).1 p
      exact ⟨p.1, fun q => p.2 ((shapeSet_subset (sh := true)).2 h2 q)⟩
    · intro i j p q
      exact absurd q ((hb _).1 p).2
    · intro i p
      show dn = true ∨ (k + 1) % 2 = 1
      by_cases hk : (k + 1) % 2 = 0
      · left
        rcases h5 hk with h5 | h5
        · exact h5
        · rw [h4] at p
          exact absurd rfl (h5 (i, i) (List.mem_toFinset.2 p))
      · right; omega
  · intro nu S h
    have hnu : IsStrict nu := h.shape
    have hS : ∀ b, b ∈ skew mu nu true ↔ S b := by
      intro b
      rw [mem_skew_shape]
      constructor
      · rintro ⟨p, q⟩; exact h.diff b p q
      · intro p
        refine ⟨(h.inside b p).1, fun q => ?_⟩
        have := (h.corner b.1 b.2 p q).1
        exact absurd this (by simp [mrppRules])
    refine ⟨(nu, skew mu nu true), (mem_mrppMoves hl hm _ _).2
      ⟨h.shape, shapeSet_subset.1 h.sub1, shapeSet_subset.1 h.sub2, rfl, ?_⟩, rfl, hS⟩
    intro hk
    by_cases hd : dn = true
    · exact Or.inl hd
    · right
      rintro ⟨i, j⟩ hb he
      simp only at he
      subst he
      have h1 := (hS _).1 (List.mem_toFinset.1 hb)
      have h2 : dn = true ∨ (k + 1) % 2 = 1 := h.diag i h1
      rcases h2 with h2 | h2
      · exact hd h2
      · omega
  · intro m hmm m' hmm' he _
    obtain ⟨nu, d⟩ := m
    obtain ⟨nu', d'⟩ := m'
    have he : nu = nu' := he
    subst he
    have h4 := ((mem_mrppMoves hl hm _ _).1 hmm).2.2.2.1
    have h4' := ((mem_mrppMoves hl hm _ _).1 hmm').2.2.2.1
    rw [show d = _ from h4, show d' = _ from h4']

/-- The sets of marked reverse plane partitions, without the assertions. -/
def mrppGen (dn : Bool) (lam : List Nat) : Nat → List Nat → Finset Tab
  | 0, mu => if mu = lam then {Tab.empty} else ∅
  | n + 1, mu =>
    if mu = lam then {Tab.empty}
    else if contains mu lam then
      (mrppH dn mu).toFinset.biUnion (fun s1 => (mrppV s1.1).toFinset.biUnion (fun s2 =>
        markedRppLayer (n + 1) s1.2 s2.2 (mrppGen dn lam n s2.1)))
    else ∅

theorem notMem_of_mrpp {n : Nat} {T : Tab} (h : IsTab (mrppRules dn) lam (2 * n) mu T) {x : Int}
    (hx : x.natAbs = 0 ∨ n < x.natAbs) (b : Nat × Nat) : x ∉ T.ent b := by
  intro hb
  obtain ⟨k, h1, h2, rfl⟩ := h.range b x hb
  simp only [mrppRules, markRules] at hx
  split at hx <;> omega

theorem mem_mrppGen (hl : IsStrict lam) (n : Nat) {mu : List Nat} (hm : IsStrict mu) (T : Tab) :
    T ∈ mrppGen dn lam n mu ↔ T ∈ genTabs (mrppRules dn) lam (mrppMoves dn lam) (2 * n) mu := by
  have hinj := mrppRules_inj dn
  have hmv := mrppMoves_lists (dn := dn) hl
  induction n generalizing mu T with
  | zero => rfl
  | succ n ih =>
    have hgen := mem_genTabs hinj (lam := lam) hl hmv (2 * n + 2) (mu := mu) hm (T := T)
    rw [show 2 * (n + 1) = 2 * n + 2 by ring, mrppGen]
    by_cases h1 : mu = lam
    · rw [if_pos h1, hgen]
      subst h1
      rw [isTab_self, Finset.mem_singleton]
    · rw [if_neg h1]
      by_cases h2 : contains mu lam = true
      · rw [if_pos h2, genTabs]
        simp only [Finset.mem_biUnion, Finset.mem_image, List.mem_toFinset, markedRppLayer, genTabs]
        rw [mrppMoves_even]
        simp only [mrppMoves_odd, List.mem_filter, mrppRules_even, mrppRules_odd]
        have key : ∀ s1 ∈ mrppH dn mu, ∀ s2 ∈ mrppV s1.1,
            ∀ T' ∈ genTabs (mrppRules dn) lam (mrppMoves dn lam) (2 * n) s2.1,
            addAll s1.2 ((n : Int) + 1) (addAll s2.2 (-((n : Int) + 1)) T') =
              addAll s2.2 (-((n + 1 : Nat) : Int)) (addAll s1.2 ((n + 1 : Nat) : Int) T') := by
          intro s1 hs1 s2 hs2 T' hT'
          obtain ⟨hm1, _, e1, _⟩ := (mem_mrppH hm s1).1 hs1
          obtain ⟨hm2, _, e2⟩ := (mem_mrppV hm1 s2).1 hs2
          have hT' := (mem_genTabs hinj (lam := lam) hl hmv (2 * n) hm2).1 hT'
          rw [addAll_comm hT'.canon (by rw [e1]; exact nodup_skewFrom _ _ _ _) (by rw [e2]; exact nodup_skewFrom _ _ _ _)
            (by omega) (notMem_of_mrpp hT' (by omega)) (notMem_of_mrpp hT' (by omega))]
          push_cast
          rfl
        constructor
        · rintro ⟨s1, hs1, s2, hs2, T', hT', rfl⟩
          obtain ⟨hm1, _, e1, _⟩ := (mem_mrppH hm s1).1 hs1
          obtain ⟨hm2, hle, e2⟩ := (mem_mrppV hm1 s2).1 hs2
          replace hT' := (ih hm2 _).1 hT'
          have hsub := ((mem_genTabs hinj (lam := lam) hl hmv (2 * n) hm2).1 hT').sub
          have hsub := shapeSet_subset.1 hsub
          refine ⟨s1, ⟨hs1, (contains_iff hl.2).2 (fun j => (hsub j).trans (hle j))⟩, _,
            ⟨s2, ⟨hs2, (contains_iff hl.2).2 hsub⟩, T', hT', rfl⟩, ?_⟩
          exact key s1 hs1 s2 hs2 T' hT'
        · rintro ⟨s1, ⟨hs1, _⟩, _, ⟨s2, ⟨hs2, _⟩, T', hT', rfl⟩, rfl⟩
          obtain ⟨hm1, _, e1, _⟩ := (mem_mrppH hm s1).1 hs1
          obtain ⟨hm2, _, e2⟩ := (mem_mrppV hm1 s2).1 hs2
          exact ⟨s1, hs1, s2, hs2, T', (ih hm2 _).2 hT', (key s1 hs1 s2 hs2 T' hT').symm⟩
      · rw [if_neg h2, hgen]
        refine ⟨fun h => by simp at h, fun h => ?_⟩
        exact absurd ((contains_iff hl.2).2 (shapeSet_subset.1 h.sub)) h2

theorem mrppGen_eq (hl : IsStrict lam) (n : Nat) {mu : List Nat} (hm : IsStrict mu) :
    mrppGen dn lam n mu = genTabs (mrppRules dn) lam (mrppMoves dn lam) (2 * n) mu := by
  ext T
  exact mem_mrppGen hl n hm T

theorem isTab_mrppGen (hl : IsStrict lam) (n : Nat) {mu : List Nat} (hm : IsStrict mu) {T : Tab} :
    T ∈ mrppGen dn lam n mu ↔ IsTab (mrppRules dn) lam (2 * n) mu T := by
  rw [mem_mrppGen hl n hm]
  exact mem_genTabs (mrppRules_inj dn) hl (mrppMoves_lists hl) (2 * n) hm

/-- The columns of the boxes with `i + 1`, and the rows of those with `(i + 1)'`. -/
def mrppWt (T : Tab) (i : Nat) : Nat :=
  ((boxesWith T ((i : Int) + 1)).image Prod.snd).card + ((boxesWith T (-((i : Int) + 1))).image Prod.fst).card

/-- A sum over marked reverse plane partitions, by the last two letters. -/
theorem sum_mrppGen {M : Type*} [AddCommMonoid M] (hl : IsStrict lam) (n : Nat) {mu : List Nat} (hm : IsStrict mu)
    (f : Tab → M) :
    ∑ T ∈ mrppGen dn lam (n + 1) mu, f T = ∑ s1 ∈ (mrppMoves dn lam (2 * n + 2) mu).toFinset,
      ∑ s2 ∈ (mrppMoves dn lam (2 * n + 1) s1.1).toFinset, ∑ T ∈ mrppGen dn lam n s2.1,
        f (addAll s1.2 ((mrppRules dn).val (2 * n + 2)) (addAll s2.2 ((mrppRules dn).val (2 * n + 1)) T)) := by
  have hinj := mrppRules_inj dn
  have hmv := mrppMoves_lists (dn := dn) hl
  rw [mrppGen_eq hl _ hm, show 2 * (n + 1) = 2 * n + 1 + 1 by ring, sum_genTabs hinj hl hmv _ hm]
  refine Finset.sum_congr rfl (fun s1 hs1 => ?_)
  have hm1 := ((mem_mrppMoves hl hm _ _).1 (List.mem_toFinset.1 hs1)).1
  rw [sum_genTabs hinj hl hmv _ hm1]
  refine Finset.sum_congr rfl (fun s2 hs2 => ?_)
  have hm2 := ((mem_mrppMoves hl hm1 _ _).1 (List.mem_toFinset.1 hs2)).1
  rw [mrppGen_eq hl _ hm2]

theorem mrppWt_add (hl : IsStrict lam) (n : Nat) {mu : List Nat} (hm : IsStrict mu) {s1 s2 : List Nat × List (Nat × Nat)}
    (h1 : s1 ∈ mrppMoves dn lam (2 * n + 2) mu) (h2 : s2 ∈ mrppMoves dn lam (2 * n + 1) s1.1) {T : Tab}
    (hT : T ∈ mrppGen dn lam n s2.1) (i : Nat) (hi : i ≤ n) :
    mrppWt (addAll s1.2 ((mrppRules dn).val (2 * n + 2)) (addAll s2.2 ((mrppRules dn).val (2 * n + 1)) T)) i =
      if i = n then colsOf mu s1.1 + rowsOf s1.1 s2.1 else mrppWt T i := by
  have hinj := mrppRules_inj dn
  have hmv := mrppMoves_lists (dn := dn) hl
  obtain ⟨hm1, _, _, e1, _⟩ := (mem_mrppMoves hl hm _ _).1 h1
  obtain ⟨hm2, _, _, e2, _⟩ := (mem_mrppMoves hl hm1 _ _).1 h2
  have hT' := (isTab_mrppGen hl n hm2).1 hT
  have nd1 := ((hmv _ mu hm).sound s1 h1).1
  have nd2 := ((hmv _ s1.1 hm1).sound s2 h2).1
  have hT2 : IsTab (mrppRules dn) lam (2 * n + 1) s1.1 (addAll s2.2 ((mrppRules dn).val (2 * n + 1)) T) := by
    refine (mem_genTabs hinj hl hmv (2 * n + 1) hm1).1 ?_
    rw [genTabs]
    exact Finset.mem_biUnion.2 ⟨s2, List.mem_toFinset.2 h2, Finset.mem_image_of_mem _
      ((mem_mrppGen hl n hm2 T).1 hT)⟩
  have hA := fun l => boxesWith_addAll hinj nd1 hT2 l
  have hB := fun l => boxesWith_addAll hinj nd2 hT' l
  rw [show 2 * n + 1 + 1 = 2 * n + 2 by ring] at hA
  simp only [mrppWt]
  rw [← mrppRules_odd dn i, ← mrppRules_even dn i, hA, hA, hB, hB]
  by_cases hin : i = n
  · subst hin
    rw [if_pos rfl, if_pos rfl, if_neg (by omega), if_pos rfl, colsOf, rowsOf, e1, e2]
  · rw [if_neg hin, if_neg (by omega), if_neg (by omega), if_neg (by omega), if_neg (by omega)]

/-! ### symmetry -/

variable {A : Type*} [CommRing A]

/-- The strict partitions between `lam` and `mu`. -/
def innerAbove (lam mu : List Nat) : Finset (List Nat) := (inner mu).filter (Leq lam ·)

theorem mem_innerAbove (hm : IsStrict mu) {nu : List Nat} : nu ∈ innerAbove lam mu ↔
    IsStrict nu ∧ Leq nu mu ∧ Leq lam nu := by
  rw [innerAbove, Finset.mem_filter, mem_inner hm, leq_iff (nu := nu)]
  tauto

theorem Leq.trans {a b c : List Nat} (h1 : Leq a b) (h2 : Leq b c) : Leq a c :=
  leq_iff.2 (fun j => (leq_iff.1 h1 j).trans (leq_iff.1 h2 j))

theorem sum_mrppMoves {M : Type*} [AddCommMonoid M] (hl : IsStrict lam) (k : Nat) (hm : IsStrict mu)
    (f : List Nat → M) :
    ∑ s ∈ (mrppMoves dn lam k mu).toFinset, f s.1 =
      ∑ nu ∈ innerAbove lam mu, if (k % 2 = 0 → DiagOk dn mu nu) then f nu else 0 := by
  rw [← Finset.sum_filter]
  refine Finset.sum_bij (fun s _ => s.1) ?_ ?_ ?_ ?_
  · intro s hs
    obtain ⟨h1, h2, h3, h4, h5⟩ := (mem_mrppMoves hl hm _ _).1 (List.mem_toFinset.1 hs)
    exact Finset.mem_filter.2 ⟨(mem_innerAbove hm).2 ⟨h1, leq_iff.2 h3, leq_iff.2 h2⟩, h5⟩
  · intro s hs s' hs' he
    have h4 := ((mem_mrppMoves hl hm _ _).1 (List.mem_toFinset.1 hs)).2.2.2.1
    have h4' := ((mem_mrppMoves hl hm _ _).1 (List.mem_toFinset.1 hs')).2.2.2.1
    have he : s.1 = s'.1 := he
    exact Prod.ext he (by rw [h4, h4', he])
  · intro nu hnu
    obtain ⟨h1, h2⟩ := Finset.mem_filter.1 hnu
    obtain ⟨h3, h4, h5⟩ := (mem_innerAbove hm).1 h1
    exact ⟨(nu, skew mu nu true), List.mem_toFinset.2 ((mem_mrppMoves hl hm _ _).2
      ⟨h3, leq_iff.1 h5, leq_iff.1 h4, rfl, h2⟩), rfl⟩
  · intro s hs
    rfl

theorem mrpp_WG_succ (hl : IsStrict lam) (k : Nat) (hm : IsStrict mu) (y : Nat → A) :
    WG (mrppGen dn lam (k + 1) mu) (k + 1) mrppWt y =
      ∑ rho ∈ innerAbove lam mu, pstep dn mu rho (y k) * WG (mrppGen dn lam k rho) k mrppWt y := by
  have e1 : WG (mrppGen dn lam (k + 1) mu) (k + 1) mrppWt y =
      ∑ s1 ∈ (mrppMoves dn lam (2 * k + 2) mu).toFinset, ∑ s2 ∈ (mrppMoves dn lam (2 * k + 1) s1.1).toFinset,
        y k ^ (colsOf mu s1.1 + rowsOf s1.1 s2.1) * WG (mrppGen dn lam k s2.1) k mrppWt y := by
    rw [WG, sum_mrppGen hl k hm]
    refine Finset.sum_congr rfl (fun s1 hs1 => Finset.sum_congr rfl (fun s2 hs2 => ?_))
    rw [WG, Finset.mul_sum]
    refine Finset.sum_congr rfl (fun T hT => ?_)
    have hw := mrppWt_add hl k hm (List.mem_toFinset.1 hs1) (List.mem_toFinset.1 hs2) hT
    rw [Finset.prod_range_succ, hw k le_rfl, if_pos rfl, mul_comm]
    congr 1
    refine Finset.prod_congr rfl (fun i hi => ?_)
    have hi := Finset.mem_range.1 hi
    rw [hw i (by omega), if_neg (by omega)]
  rw [e1]
  have e2 : ∀ s1 ∈ (mrppMoves dn lam (2 * k + 2) mu).toFinset,
      ∑ s2 ∈ (mrppMoves dn lam (2 * k + 1) s1.1).toFinset,
        y k ^ (colsOf mu s1.1 + rowsOf s1.1 s2.1) * WG (mrppGen dn lam k s2.1) k mrppWt y =
      ∑ rho ∈ innerAbove lam s1.1, y k ^ (colsOf mu s1.1 + rowsOf s1.1 rho) * WG (mrppGen dn lam k rho) k mrppWt y := by
    intro s1 hs1
    have hm1 := ((mem_mrppMoves hl hm _ _).1 (List.mem_toFinset.1 hs1)).1
    rw [sum_mrppMoves hl (2 * k + 1) hm1 (fun rho => y k ^ (colsOf mu s1.1 + rowsOf s1.1 rho) *
      WG (mrppGen dn lam k rho) k mrppWt y)]
    refine Finset.sum_congr rfl (fun rho _ => if_pos (fun h => by omega))
  rw [Finset.sum_congr rfl e2, sum_mrppMoves hl (2 * k + 2) hm (fun nu => ∑ rho ∈ innerAbove lam nu,
    y k ^ (colsOf mu nu + rowsOf nu rho) * WG (mrppGen dn lam k rho) k mrppWt y)]
  have e3 : ∀ rho ∈ innerAbove lam mu, pstep dn mu rho (y k) * WG (mrppGen dn lam k rho) k mrppWt y =
      ∑ nu ∈ innerAbove lam mu, if Leq rho nu ∧ DiagOk dn mu nu then
        y k ^ (colsOf mu nu + rowsOf nu rho) * WG (mrppGen dn lam k rho) k mrppWt y else 0 := by
    intro rho hrho
    rw [pstep, Finset.sum_mul, innerAbove, Finset.sum_filter]
    refine Finset.sum_congr rfl (fun nu hnu => ?_)
    have hlr := ((mem_innerAbove hm).1 hrho).2.2
    rw [ite_mul, zero_mul]
    by_cases h : Leq rho nu ∧ DiagOk dn mu nu
    · rw [if_pos h, if_pos (hlr.trans h.1)]
    · rw [if_neg h, ite_self]
  rw [Finset.sum_congr rfl e3, Finset.sum_comm]
  refine Finset.sum_congr rfl (fun nu hnu => ?_)
  obtain ⟨h1, h2, h3⟩ := (mem_innerAbove hm).1 hnu
  by_cases hd : DiagOk dn mu nu
  · rw [if_pos (fun _ => hd)]
    simp only [hd, and_true]
    rw [← Finset.sum_filter]
    refine Finset.sum_congr ?_ (fun _ _ => rfl)
    ext rho
    rw [Finset.mem_filter, mem_innerAbove h1, mem_innerAbove hm]
    constructor
    · rintro ⟨a, b, c⟩; exact ⟨⟨a, b.trans h2, c⟩, b⟩
    · rintro ⟨⟨a, b, c⟩, d⟩; exact ⟨a, d, c⟩
  · rw [if_neg (fun h => hd (h (by omega)))]
    symm
    exact Finset.sum_eq_zero (fun rho _ => if_neg (fun h => hd h.2))

/-- The generating functions are symmetric. -/
theorem mrpp_swap (hl : IsStrict lam) (n : Nat) (hm : IsStrict mu) : SwapInvariant (mrppGen dn lam n mu) n mrppWt := by
  intro j hj y
  refine swap_of_transfer (A := MvPolynomial ℕ ℤ) (fun mu : List Nat => IsStrict mu) (fun mu => innerAbove lam mu)
    (fun mu nu x => pstep dn mu nu x)
    (fun k mu y => WG (mrppGen dn lam k mu) k mrppWt y) ?_ ?_ ?_ (fun mu => innerAbove lam mu)
    ?_ ?_ j n hj mu hm y
  · intro mu hmu nu hnu
    exact ((mem_innerAbove hmu).1 hnu).1
  · intro k mu hmu y
    exact mrpp_WG_succ hl k hmu y
  · intro k mu y y' hy
    refine Finset.sum_congr rfl (fun T _ => Finset.prod_congr rfl (fun i hi => ?_))
    rw [hy i (Finset.mem_range.1 hi)]
  · intro mu hmu nu hnu rho hrho
    obtain ⟨h1, h2, h3⟩ := (mem_innerAbove hmu).1 hnu
    obtain ⟨g1, g2, g3⟩ := (mem_innerAbove h1).1 hrho
    exact (mem_innerAbove hmu).2 ⟨g1, g2.trans h2, g3⟩
  · intro mu hmu rho x y
    by_cases hr : IsStrict rho ∧ Leq lam rho
    · have key : ∀ x y : MvPolynomial ℕ ℤ, (∑ nu ∈ innerAbove lam mu, if rho ∈ innerAbove lam nu then
          pstep dn mu nu x * pstep dn nu rho y else 0) = pstep2 dn mu rho x y := by
        intro x y
        rw [pstep2, innerAbove, Finset.sum_filter]
        refine Finset.sum_congr rfl (fun nu hnu => ?_)
        have hnu := (mem_inner hmu).1 hnu
        by_cases h : Leq rho nu
        · rw [if_pos (hr.2.trans h), if_pos ((mem_innerAbove hnu.1).2 ⟨hr.1, h, hr.2⟩)]
        · rw [pstep_zero hnu.1 y h, mul_zero, ite_self, ite_self]
      rw [key, key, pstep2_comm dn hmu hr.1]
    · have key : ∀ x y : MvPolynomial ℕ ℤ, (∑ nu ∈ innerAbove lam mu, if rho ∈ innerAbove lam nu then
          pstep dn mu nu x * pstep dn nu rho y else 0) = 0 := by
        intro x y
        refine Finset.sum_eq_zero (fun nu hnu => if_neg (fun h => hr ?_))
        obtain ⟨h1, h2, h3⟩ := (mem_innerAbove hmu).1 hnu
        obtain ⟨g1, g2, g3⟩ := (mem_innerAbove h1).1 h
        exact ⟨g1, g3⟩
      rw [key, key]

end Verif.Tableaux
