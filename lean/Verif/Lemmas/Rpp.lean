import Verif.Lemmas.RppSymm
import Verif.Lemmas.RppCount
import Verif.Lemmas.Transfer

/-! Reverse plane partitions: the generated set, its weights and counts. -/

attribute [-simp] List.getD_eq_getElem?_getD

namespace Verif.Tableaux

open Tab Verif.Part Partition Symm

variable {A : Type*} [CommRing A]

theorem transpose_le {lam mu : List Nat} (hl : IsPartition lam) (hm : IsPartition mu)
    (h : ∀ j, lam.getD j 0 ≤ mu.getD j 0) (j : Nat) : (transpose lam).getD j 0 ≤ (transpose mu).getD j 0 := by
  by_contra hc
  have h1 := (lt_getD_transpose hl.1 ((transpose mu).getD j 0) j).1 (by omega)
  have h2 := (lt_getD_transpose hm.1 ((transpose mu).getD j 0) j).2 (by have := h ((transpose mu).getD j 0); omega)
  omega

theorem transpose_le_iff {lam mu : List Nat} (hl : IsPartition lam) (hm : IsPartition mu) :
    (∀ j, (transpose lam).getD j 0 ≤ (transpose mu).getD j 0) ↔ ∀ j, lam.getD j 0 ≤ mu.getD j 0 := by
  refine ⟨fun h => ?_, transpose_le hl hm⟩
  have := transpose_le (transpose_isPartition hl) (transpose_isPartition hm) h
  rwa [transpose_transpose hl, transpose_transpose hm] at this

/-- `_rpp_vertical_strips(mu, lam)`: every partition between `lam` and `mu`, once. -/
theorem rppVerticalStrips_spec {mu lam : List Nat} (hm : IsPartition mu) (hl : IsPartition lam) :
    (∀ s, s ∈ rppVerticalStrips mu lam ↔ IsPartition s.1 ∧ (∀ j, lam.getD j 0 ≤ s.1.getD j 0) ∧
      (∀ j, s.1.getD j 0 ≤ mu.getD j 0) ∧ s.2 = (skew (transpose mu) (transpose s.1)).map Prod.swap) ∧
    (rppVerticalStrips mu lam).Nodup := by
  obtain ⟨hspec, hnd⟩ := rppHorizontalStrips_spec (transpose_isPartition hm) (transpose_isPartition hl)
  have h1 : ∀ s, s ∈ rppVerticalStrips mu lam ↔ IsPartition s.1 ∧ (∀ j, lam.getD j 0 ≤ s.1.getD j 0) ∧
      (∀ j, s.1.getD j 0 ≤ mu.getD j 0) ∧ s.2 = (skew (transpose mu) (transpose s.1)).map Prod.swap := by
    rintro ⟨nu, d⟩
    rw [rppVerticalStrips, List.mem_map]
    constructor
    · rintro ⟨⟨nu', d'⟩, hs, he⟩
      obtain ⟨g1, g2, g3, g4⟩ := (hspec _).1 hs
      have he := Prod.mk_inj.1 he
      have e1 : transpose nu' = nu := he.1
      have e2 : d'.map Prod.swap = d := he.2
      have g1 : IsPartition nu' := g1
      have g4 : d' = skew (transpose mu) nu' := g4
      have hnu : IsPartition nu := e1 ▸ transpose_isPartition g1
      have e3 : nu' = transpose nu := by rw [← e1, transpose_transpose g1]
      subst e3
      refine ⟨hnu, (transpose_le_iff hl hnu).1 g2, (transpose_le_iff hnu hm).1 g3, ?_⟩
      show d = _
      rw [← e2, g4]
    · rintro ⟨g1, g2, g3, g4⟩
      have g1 : IsPartition nu := g1
      refine ⟨(transpose nu, skew (transpose mu) (transpose nu)), (hspec _).2
        ⟨transpose_isPartition g1, transpose_le hl g1 g2, transpose_le g1 hm g3, rfl⟩, ?_⟩
      show (transpose (transpose nu), _) = (nu, d)
      rw [transpose_transpose g1, show d = _ from g4]
  refine ⟨h1, ?_⟩
  rw [rppVerticalStrips]
  refine List.Nodup.map_on ?_ hnd
  rintro ⟨a, d⟩ ha ⟨b, e⟩ hb he
  obtain ⟨a1, _, _, a4⟩ := (hspec _).1 ha
  obtain ⟨b1, _, _, b4⟩ := (hspec _).1 hb
  have he := (Prod.mk_inj.1 he).1
  have hab : a = b := by
    rw [← transpose_transpose (show IsPartition a from a1), ← transpose_transpose (show IsPartition b from b1)]
    exact congrArg transpose he
  subst hab
  rw [show d = _ from a4, show e = _ from b4]

theorem mem_swap_skew {mu nu : List Nat} (hm : IsPartition mu) (hn : IsPartition nu) {b : Nat × Nat} :
    b ∈ (skew (transpose mu) (transpose nu)).map Prod.swap ↔ b ∈ Diagram mu ∧ b ∉ Diagram nu := by
  obtain ⟨i, j⟩ := b
  rw [← transpose_diagram hm, ← transpose_diagram hn, List.mem_map]
  constructor
  · rintro ⟨⟨c, d⟩, h1, h2⟩
    obtain ⟨rfl, rfl⟩ := Prod.mk_inj.1 h2
    exact mem_skew_shape.1 h1
  · intro h
    exact ⟨(j, i), mem_skew_shape.2 h, rfl⟩

/-- Weakly increasing rows and columns. -/
def rppRules : Rules where
  sh := false
  sv := false
  val k := (k : Int)
  rowRep _ := True
  colRep _ := True
  diag _ := True

theorem rppRules_inj : Function.Injective rppRules.val := fun a b h => by
  have : (a : Int) = b := h
  exact_mod_cast this

def rppMoves (lam : List Nat) (_ : Nat) (mu : List Nat) : List (List Nat × List (Nat × Nat)) :=
  rppVerticalStrips mu lam

theorem rppMoves_lists {lam : List Nat} (hl : IsPartition lam) (k : Nat) (mu : List Nat) (hm : IsPartition mu) :
    ListsMoves rppRules lam (k + 1) mu (rppMoves lam (k + 1) mu) := by
  obtain ⟨hspec, hnd⟩ := rppVerticalStrips_spec hm hl
  constructor
  · intro m hmm
    obtain ⟨h1, h2, h3, h4⟩ := (hspec m).1 hmm
    have hb : ∀ b, b ∈ m.2 ↔ b ∈ Diagram mu ∧ b ∉ Diagram m.1 := by
      intro b; rw [h4]; exact mem_swap_skew hm h1
    refine ⟨?_, h1, shapeSet_subset.2 h2, shapeSet_subset.2 h3, fun b p q => (hb b).2 ⟨p, q⟩, ?_, ?_,
      fun _ _ _ _ _ => trivial, fun _ _ _ _ _ => trivial, fun _ _ => trivial⟩
    · rw [h4]
      exact (nodup_skewFrom _ _ _ _).map Prod.swap_injective
    · intro b p
      have p := (hb b).1 p
      exact ⟨p.1, fun q => p.2 ((shapeSet_subset (sh := false)).2 h2 q)⟩
    · intro i j p q
      exact absurd q ((hb _).1 p).2
  · intro nu S h
    have hnu : IsPartition nu := h.shape
    refine ⟨(nu, (skew (transpose mu) (transpose nu)).map Prod.swap), (hspec _).2
      ⟨h.shape, shapeSet_subset.1 h.sub1, shapeSet_subset.1 h.sub2, rfl⟩, rfl, fun b => ?_⟩
    rw [mem_swap_skew hm hnu]
    constructor
    · rintro ⟨p, q⟩; exact h.diff b p q
    · intro p
      refine ⟨(h.inside b p).1, fun q => ?_⟩
      have := (h.corner b.1 b.2 p q).1
      exact absurd this (by simp [rppRules])
  · intro m hmm m' hmm' he _
    obtain ⟨nu, d⟩ := m
    obtain ⟨nu', d'⟩ := m'
    have he : nu = nu' := he
    subst he
    have h4 := ((hspec _).1 hmm).2.2.2
    have h4' := ((hspec _).1 hmm').2.2.2
    rw [show d = _ from h4, show d' = _ from h4']

theorem mem_semistandardRpp {lam : List Nat} (hl : IsPartition lam) (n : Nat) {mu : List Nat} (hm : IsPartition mu)
    (T : Tab) : T ∈ semistandardRpp lam n mu ↔ T ∈ genTabs rppRules lam (rppMoves lam) n mu := by
  induction n generalizing mu T with
  | zero => rfl
  | succ n ih =>
    have hgen := mem_genTabs rppRules_inj (lam := lam) hl (rppMoves_lists hl) (n + 1) (mu := mu) hm (T := T)
    rw [semistandardRpp]
    by_cases h1 : mu = lam
    · rw [if_pos h1, hgen]
      subst h1
      rw [isTab_self, Finset.mem_singleton]
    · rw [if_neg h1]
      by_cases h2 : contains mu lam = true
      · rw [if_pos h2, genTabs]
        simp only [Finset.mem_biUnion, Finset.mem_image, List.mem_toFinset]
        refine exists_congr (fun s => and_congr_right (fun hs => exists_congr (fun T' => ?_)))
        have hs' := ((rppVerticalStrips_spec hm hl).1 s).1 hs
        rw [ih hs'.1]
        rfl
      · rw [if_neg h2, hgen]
        refine ⟨fun h => by simp at h, fun h => ?_⟩
        exact absurd ((contains_iff hl.2).2 (shapeSet_subset.1 h.sub)) h2

theorem semistandardRpp_eq {lam : List Nat} (hl : IsPartition lam) (n : Nat) {mu : List Nat} (hm : IsPartition mu) :
    semistandardRpp lam n mu = genTabs rppRules lam (rppMoves lam) n mu := by
  ext T
  exact mem_semistandardRpp hl n hm T

/-- The number of columns that meet `S`. -/
def colOm (_ : Nat) (S : Finset (Nat × Nat)) : Nat := (S.image Prod.snd).card

theorem colOm_skew {mu nu : List Nat} (hm : IsPartition mu) (hn : IsPartition nu) (k : Nat) {d : List (Nat × Nat)}
    (hd : d = (skew (transpose mu) (transpose nu)).map Prod.swap) :
    colOm k d.toFinset = rowDiff (transpose mu) (transpose nu) := by
  rw [colOm, rowDiff]
  symm
  rw [← Finset.card_map ⟨Nat.succ, Nat.succ_injective⟩]
  congr 1
  ext j
  simp only [Finset.mem_map, Finset.mem_filter, Finset.mem_range, Finset.mem_image, List.mem_toFinset,
    Function.Embedding.coeFn_mk]
  subst hd
  constructor
  · rintro ⟨c, ⟨h1, h2⟩, rfl⟩
    refine ⟨((transpose mu).getD c 0, c + 1), (mem_swap_skew hm hn).2 ?_, rfl⟩
    rw [← transpose_diagram hm, ← transpose_diagram hn, mem_diagram, mem_diagram]
    simp only [Nat.add_sub_cancel]
    omega
  · rintro ⟨⟨i, j'⟩, h1, rfl⟩
    have h1 := (mem_swap_skew hm hn).1 h1
    rw [← transpose_diagram hm, ← transpose_diagram hn, mem_diagram, mem_diagram] at h1
    refine ⟨j' - 1, ⟨?_, by omega⟩, by simp; omega⟩
    by_contra hc
    have := h1.1.2.2
    rw [List.getD_eq_default (transpose mu) _ (by omega)] at this
    omega

theorem rowDiff_eq_zero {mu nu : List Nat} (hm : IsPartition mu) (hn : IsPartition nu)
    (h : ∀ j, nu.getD j 0 ≤ mu.getD j 0) : rowDiff mu nu = 0 ↔ nu = mu := by
  rw [rowDiff, Finset.card_eq_zero, Finset.filter_eq_empty_iff]
  constructor
  · intro h'
    refine row_ext hn.2 hm.2 (fun i => ?_)
    by_cases hi : i < mu.length
    · have := h' (Finset.mem_range.2 hi)
      have := h i
      omega
    · have := h i
      rw [List.getD_eq_default mu _ (by omega)] at *
      omega
  · rintro rfl i _
    omega

theorem rpp_WG_succ {lam : List Nat} (hl : IsPartition lam) (k : Nat) {mu : List Nat} (hm : IsPartition mu)
    (y : Nat → A) :
    WG (semistandardRpp lam (k + 1) mu) (k + 1) (tabWeight rppRules colOm) y =
      ∑ nu ∈ between lam mu, y k ^ rowDiff (transpose mu) (transpose nu) *
        WG (semistandardRpp lam k nu) k (tabWeight rppRules colOm) y := by
  rw [semistandardRpp_eq hl _ hm, WG_succ rppRules_inj hl (rppMoves_lists hl) colOm k hm]
  obtain ⟨hspec, hnd⟩ := rppVerticalStrips_spec hm hl
  refine Finset.sum_bij (fun m _ => m.1) ?_ ?_ ?_ ?_
  · intro m hmm
    obtain ⟨h1, h2, h3, _⟩ := (hspec m).1 (List.mem_toFinset.1 hmm)
    exact (mem_between hm hl).2 ⟨h1, h2, h3⟩
  · intro m hmm m' hmm' he
    have h4 := ((hspec _).1 (List.mem_toFinset.1 hmm)).2.2.2
    have h4' := ((hspec _).1 (List.mem_toFinset.1 hmm')).2.2.2
    refine Prod.ext he ?_
    rw [h4, h4']
    have he : m.1 = m'.1 := he
    rw [he]
  · intro nu hnu
    obtain ⟨h1, h2, h3⟩ := (mem_between hm hl).1 hnu
    exact ⟨(nu, (skew (transpose mu) (transpose nu)).map Prod.swap), List.mem_toFinset.2 ((hspec _).2 ⟨h1, h2, h3, rfl⟩), rfl⟩
  · intro m hmm
    obtain ⟨h1, h2, h3, h4⟩ := (hspec m).1 (List.mem_toFinset.1 hmm)
    rw [colOm_skew hm h1 _ h4, semistandardRpp_eq hl _ h1]

/-- Two steps commute, in columns. -/
theorem between_symm_col {mu rho : List Nat} (hm : IsPartition mu) (hr : IsPartition rho) (x y : A) :
    ∑ nu ∈ between rho mu, x ^ rowDiff (transpose mu) (transpose nu) * y ^ rowDiff (transpose nu) (transpose rho) =
      ∑ nu ∈ between rho mu, y ^ rowDiff (transpose mu) (transpose nu) * x ^ rowDiff (transpose nu) (transpose rho) := by
  have key : ∀ x y : A, ∑ nu ∈ between rho mu,
      x ^ rowDiff (transpose mu) (transpose nu) * y ^ rowDiff (transpose nu) (transpose rho) =
      ∑ nu ∈ between (transpose rho) (transpose mu), x ^ rowDiff (transpose mu) nu * y ^ rowDiff nu (transpose rho) := by
    intro x y
    refine Finset.sum_bij (fun nu _ => transpose nu) ?_ ?_ ?_ ?_
    · intro nu hnu
      obtain ⟨h1, h2, h3⟩ := (mem_between hm hr).1 hnu
      exact (mem_between (transpose_isPartition hm) (transpose_isPartition hr)).2
        ⟨transpose_isPartition h1, transpose_le hr h1 h2, transpose_le h1 hm h3⟩
    · intro a ha b hb he
      have h1 := ((mem_between hm hr).1 ha).1
      have h2 := ((mem_between hm hr).1 hb).1
      rw [← transpose_transpose h1, ← transpose_transpose h2]
      exact congrArg transpose he
    · intro nu hnu
      obtain ⟨h1, h2, h3⟩ := (mem_between (transpose_isPartition hm) (transpose_isPartition hr)).1 hnu
      refine ⟨transpose nu, (mem_between hm hr).2 ⟨transpose_isPartition h1, ?_, ?_⟩, transpose_transpose h1⟩
      · have := transpose_le (transpose_isPartition hr) h1 h2
        rwa [transpose_transpose hr] at this
      · have := transpose_le h1 (transpose_isPartition hm) h3
        rwa [transpose_transpose hm] at this
    · intro nu hnu
      rfl
  rw [key, key, between_symm (transpose_isPartition hm) (transpose_isPartition hr)]

theorem rpp_swap {lam : List Nat} (hl : IsPartition lam) (n : Nat) {mu : List Nat} (hm : IsPartition mu) :
    SwapInvariant (semistandardRpp lam n mu) n (tabWeight rppRules colOm) := by
  intro j hj y
  refine swap_of_transfer (A := MvPolynomial ℕ ℤ) (fun mu : List Nat => IsPartition mu) (fun mu => between lam mu)
    (fun mu nu x => x ^ rowDiff (transpose mu) (transpose nu))
    (fun k mu y => WG (semistandardRpp lam k mu) k (tabWeight rppRules colOm) y) ?_ ?_ ?_ (fun mu => between lam mu)
    ?_ ?_ j n hj mu hm y
  · intro mu hmu nu hnu
    exact ((mem_between hmu hl).1 hnu).1
  · intro k mu hmu y
    exact rpp_WG_succ hl k hmu y
  · intro k mu y y' hy
    refine Finset.sum_congr rfl (fun T _ => Finset.prod_congr rfl (fun i hi => ?_))
    rw [hy i (Finset.mem_range.1 hi)]
  · intro mu hmu nu hnu rho hrho
    obtain ⟨h1, h2, h3⟩ := (mem_between hmu hl).1 hnu
    obtain ⟨g1, g2, g3⟩ := (mem_between h1 hl).1 hrho
    exact (mem_between hmu hl).2 ⟨g1, g2, fun i => (g3 i).trans (h3 i)⟩
  · intro mu hmu rho x y
    by_cases hr : IsPartition rho ∧ ∀ i, lam.getD i 0 ≤ rho.getD i 0
    · have key : ∀ x y : MvPolynomial ℕ ℤ, (∑ nu ∈ between lam mu, if rho ∈ between lam nu then
          x ^ rowDiff (transpose mu) (transpose nu) * y ^ rowDiff (transpose nu) (transpose rho) else 0) =
          ∑ nu ∈ between rho mu, x ^ rowDiff (transpose mu) (transpose nu) * y ^ rowDiff (transpose nu) (transpose rho) := by
        intro x y
        rw [← Finset.sum_filter]
        refine Finset.sum_congr ?_ (fun _ _ => rfl)
        ext nu
        rw [Finset.mem_filter, mem_between hmu hl, mem_between hmu hr.1]
        constructor
        · rintro ⟨⟨h1, h2, h3⟩, h4⟩
          exact ⟨h1, ((mem_between h1 hl).1 h4).2.2, h3⟩
        · rintro ⟨h1, h2, h3⟩
          exact ⟨⟨h1, fun i => (hr.2 i).trans (h2 i), h3⟩, (mem_between h1 hl).2 ⟨hr.1, hr.2, h2⟩⟩
      rw [key, key, between_symm_col hmu hr.1]
    · have key : ∀ x y : MvPolynomial ℕ ℤ, (∑ nu ∈ between lam mu, if rho ∈ between lam nu then
          x ^ rowDiff (transpose mu) (transpose nu) * y ^ rowDiff (transpose nu) (transpose rho) else 0) = 0 := by
        intro x y
        refine Finset.sum_eq_zero (fun nu hnu => if_neg (fun h => hr ?_))
        obtain ⟨h1, h2, h3⟩ := (mem_between hmu hl).1 hnu
        obtain ⟨g1, g2, g3⟩ := (mem_between h1 hl).1 h
        exact ⟨g1, g2⟩
      rw [key, key]

/-! ### counting -/

theorem length_dedup_eq (k : Nat) (d : List (Nat × Nat)) : (d.map Prod.snd).dedup.length = colOm k d.toFinset := by
  rw [colOm, ← List.card_toFinset]
  congr 1
  ext j
  simp

theorem rpp_countSetup {lam : List Nat} (hl : IsPartition lam) :
    CountSetup lam (countSemistandardRpp lam) (fun mu => IsPartition mu) (fun mu => contains mu lam = true)
      (fun mu => (rppVerticalStrips mu lam).map (fun s => (s.1, (s.2.map Prod.snd).dedup.length)))
      (fun k mu alpha => wCount (semistandardRpp lam k mu) k (tabWeight rppRules colOm) alpha) := by
  have hspec := fun mu (hm : IsPartition mu) => (rppVerticalStrips_spec hm hl).1
  refine ⟨fun mu => rfl, ?_, ?_, ?_, ?_, ?_, ?_, ?_, ?_, ?_, ?_, ?_, ?_, hl⟩
  · intro n
    rw [countSemistandardRpp, if_pos rfl]
  · intro n mu hm h1 h2
    rw [countSemistandardRpp, if_neg h1, if_pos h2, List.foldl_map]
  · intro n mu hm h1 h2
    rw [countSemistandardRpp, if_neg h1, if_neg h2]
  · intro mu hm s hs
    obtain ⟨t, ht, rfl⟩ := List.mem_map.1 hs
    exact ((hspec mu hm t).1 ht).1
  · intro mu hm s hs
    obtain ⟨t, ht, rfl⟩ := List.mem_map.1 hs
    obtain ⟨h1, h2, h3, h4⟩ := (hspec mu hm t).1 ht
    show (t.2.map Prod.snd).dedup.length = 0 ↔ t.1 = mu
    rw [length_dedup_eq 0, colOm_skew hm h1 _ h4, rowDiff_eq_zero (transpose_isPartition hm) (transpose_isPartition h1)
      (transpose_le h1 hm h3)]
    constructor
    · intro h
      rw [← transpose_transpose h1, h, transpose_transpose hm]
    · intro h; rw [h]
  · intro mu hm hi
    rw [List.countP_map]
    have hnd := (rppVerticalStrips_spec hm hl).2
    have e : (rppVerticalStrips mu lam).countP
        ((fun s => decide (s.1 = mu)) ∘ fun s => (s.1, (s.2.map Prod.snd).dedup.length)) =
        (rppVerticalStrips mu lam).count (mu, (skew (transpose mu) (transpose mu)).map Prod.swap) := by
      rw [List.count]
      refine List.countP_congr (fun s hs => ?_)
      obtain ⟨h1, h2, h3, h4⟩ := (hspec mu hm s).1 hs
      simp only [Function.comp_apply, decide_eq_true_eq, beq_iff_eq]
      constructor
      · intro h
        refine Prod.ext h ?_
        rw [h4, h]
      · intro h
        rw [h]
    rw [e]
    exact List.count_eq_one_of_mem hnd ((hspec mu hm _).2 ⟨hm, (contains_iff hl.2).1 hi, fun _ => le_rfl, rfl⟩)
  · intro s hs hne
    obtain ⟨t, ht, rfl⟩ := List.mem_map.1 hs
    obtain ⟨h1, h2, h3, h4⟩ := (hspec lam hl t).1 ht
    exact absurd (row_ext h1.2 hl.2 (fun i => le_antisymm (h3 i) (h2 i))) hne
  · intro mu hm alpha
    simp only [semistandardRpp, wCount]
    by_cases h : mu = lam
    · rw [if_pos h, if_pos h]; simp
    · rw [if_neg h, if_neg h]; simp
  · intro mu hm k alpha hi
    rw [semistandardRpp_eq hl _ hm, wCount_succ rppRules_inj hl (rppMoves_lists hl) colOm k hm, List.map_map]
    rw [show rppMoves lam (k + 1) mu = rppVerticalStrips mu lam from rfl,
      List.sum_toFinset _ (rppVerticalStrips_spec hm hl).2]
    refine congrArg List.sum (List.map_congr_left (fun s hs => ?_))
    rw [Function.comp_apply]
    simp only
    rw [length_dedup_eq (k + 1), semistandardRpp_eq hl _ ((hspec mu hm s).1 hs).1]
  · intro mu hm k alpha hi
    have : semistandardRpp lam k mu = ∅ := by
      rw [Finset.eq_empty_iff_forall_notMem]
      intro T hT
      have h := (mem_genTabs rppRules_inj (lam := lam) hl (rppMoves_lists hl) k (mu := mu) hm).1
        ((mem_semistandardRpp hl k hm T).1 hT)
      exact hi ((contains_iff hl.2).2 (shapeSet_subset.1 h.sub))
    rw [this]
    simp [wCount]
  · intro k mu alpha alpha' h
    exact wCount_congr h
  · exact (contains_iff hl.2).2 (fun _ => le_rfl)

end Verif.Tableaux
