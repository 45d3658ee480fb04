import Verif.Lemmas.SymMono

/-! The product of monomial symmetric functions. -/

namespace Verif.Symm

open Verif.Part Partition

attribute [-simp] List.getD_eq_getElem?_getD

/-! ### sorting -/

theorem sortTrim_perm (u : List Nat) : (nz u).Perm (sortTrim u) := by
  have h1 : (nz (u.insertionSort (· ≤ ·)).reverse).Perm (nz u) :=
    ((List.reverse_perm _).trans (List.perm_insertionSort _ u)).filter _
  refine h1.symm.trans ?_
  rw [sortTrim, trim]
  generalize hl : (u.insertionSort (· ≤ ·)) = l
  have hs : l.Pairwise (· ≤ ·) := by rw [← hl]; exact List.pairwise_insertionSort _ _
  rw [List.reverse_reverse]
  have : ∀ l : List Nat, l.Pairwise (· ≤ ·) → nz l = l.dropWhile (· == 0) := by
    intro l hs
    induction l with
    | nil => rfl
    | cons a l ih =>
      rw [List.pairwise_cons] at hs
      by_cases ha : a = 0
      · subst ha; rw [nz_zero, ih hs.2]; simp
      · rw [nz_eq_self]
        · simp [ha]
        · intro b hb
          rcases List.mem_cons.1 hb with rfl | hb
          · omega
          · have := hs.1 b hb; omega
  have e : nz l.reverse = (nz l).reverse := by simp [nz]
  rw [e, this l hs]

theorem sortTrim_isPartition (u : List Nat) : IsPartition (sortTrim u) := by
  rw [sortTrim]
  apply trim_isPartition
  rw [List.pairwise_reverse]
  exact List.pairwise_insertionSort _ _

theorem perm_partition_eq {a b : List Nat} (ha : IsPartition a) (hb : IsPartition b) (h : a.Perm b) : a = b :=
  List.Perm.eq_of_pairwise (fun _ _ _ _ h1 h2 => le_antisymm h2 h1) ha.1 hb.1 h

theorem sortTrim_eq_iff {u g : List Nat} (hg : IsPartition g) : sortTrim u = g ↔ (nz u).Perm g := by
  constructor
  · rintro rfl; exact sortTrim_perm u
  · intro h
    exact perm_partition_eq (sortTrim_isPartition u) hg ((sortTrim_perm u).symm.trans h)

theorem sortTrim_self {g : List Nat} (hg : IsPartition g) : sortTrim g = g :=
  (sortTrim_eq_iff hg).2 (by rw [nz_eq_self hg.2])

theorem perm_nz_pad (u : List Nat) : u.Perm (nz u ++ List.replicate (u.length - (nz u).length) 0) := by
  induction u with
  | nil => simp
  | cons a u ih =>
    have hle : (nz u).length ≤ u.length := List.length_filter_le _ _
    by_cases ha : a = 0
    · subst ha
      rw [nz_zero, List.length_cons, show u.length + 1 - (nz u).length = (u.length - (nz u).length) + 1 by omega,
        List.replicate_succ]
      exact (ih.cons 0).trans List.perm_middle.symm
    · rw [nz_pos ha, List.length_cons, List.length_cons, Nat.add_sub_add_right, List.cons_append]
      exact ih.cons a

/-! ### pairs of exponent vectors -/

/-- The pairs of exponent vectors of two monomials, zipped. -/
def pairs (n : Nat) (mu nu : List Nat) : Finset (List (Nat × Nat)) :=
  ((destandardize n mu).toFinset ×ˢ (destandardize n nu).toFinset).image (fun vw => vw.1.zip vw.2)

/-- The sum of the two vectors. -/
def gam (p : List (Nat × Nat)) : List Nat := p.map (fun q => q.1 + q.2)

theorem mem_pairs {n : Nat} {mu nu : List Nat} (hm : IsPartition mu) (hn : IsPartition nu) (p : List (Nat × Nat)) :
    p ∈ pairs n mu nu ↔ p.length = n ∧ (nz (p.map Prod.fst)).Perm mu ∧ (nz (p.map Prod.snd)).Perm nu := by
  rw [pairs, Finset.mem_image]
  constructor
  · rintro ⟨⟨v, w⟩, h, rfl⟩
    rw [Finset.mem_product, List.mem_toFinset, List.mem_toFinset, mem_destandardize n hm, mem_destandardize n hn] at h
    obtain ⟨⟨h1, h2⟩, h3, h4⟩ := h
    simp only at h1 h2 h3 h4
    refine ⟨by simp [h1, h3], ?_, ?_⟩
    · rw [List.map_fst_zip (by simp only; omega)]; exact h2
    · rw [List.map_snd_zip (by simp only; omega)]; exact h4
  · rintro ⟨h1, h2, h3⟩
    refine ⟨(p.map Prod.fst, p.map Prod.snd), ?_, ?_⟩
    · rw [Finset.mem_product, List.mem_toFinset, List.mem_toFinset, mem_destandardize n hm, mem_destandardize n hn]
      exact ⟨⟨by simp [h1], h2⟩, by simp [h1], h3⟩
    · exact (List.zip_of_prod rfl rfl).symm

theorem sum_pairs {B : Type*} [AddCommMonoid B] {n : Nat} {mu nu : List Nat} (hm : IsPartition mu)
    (hn : IsPartition nu) (F : List (Nat × Nat) → B) :
    ∑ p ∈ pairs n mu nu, F p =
      ((destandardize n mu).map (fun v => ((destandardize n nu).map (fun w => F (v.zip w))).sum)).sum := by
  rw [pairs, Finset.sum_image]
  · rw [Finset.sum_product, ← List.sum_toFinset _ (destandardize_nodup n hm)]
    refine Finset.sum_congr rfl (fun v _ => ?_)
    rw [← List.sum_toFinset _ (destandardize_nodup n hn)]
  · rintro ⟨v, w⟩ h ⟨v', w'⟩ h' he
    simp only [Finset.coe_product, Set.mem_prod, Finset.mem_coe, List.mem_toFinset, mem_destandardize n hm,
      mem_destandardize n hn] at h h'
    simp only at he
    have e1 := congrArg (List.map Prod.fst) he
    have e2 := congrArg (List.map Prod.snd) he
    rw [List.map_fst_zip (by omega), List.map_fst_zip (by omega)] at e1
    rw [List.map_snd_zip (by omega), List.map_snd_zip (by omega)] at e2
    rw [e1, e2]

variable {A : Type*} [CommRing A]

theorem xm_gam (x : Nat → A) (p : List (Nat × Nat)) (s : Nat) :
    xm x s (gam p) = xm x s (p.map Prod.fst) * xm x s (p.map Prod.snd) := by
  induction p generalizing s with
  | nil => simp [gam, xm]
  | cons q p ih =>
    have : gam (q :: p) = (q.1 + q.2) :: gam p := rfl
    rw [this, List.map_cons, List.map_cons, xm, xm, xm, ih, pow_add]
    ring

/-- The number of pairs with sum `u`. -/
def npairs (n : Nat) (mu nu u : List Nat) : Nat := ((pairs n mu nu).filter (fun p => gam p = u)).card

/-- Rearranging the sum rearranges the pairs. -/
theorem rearrange {u u' : List Nat} (h : u.Perm u') : ∃ f g : List (Nat × Nat) → List (Nat × Nat),
    (∀ p, gam p = u → gam (f p) = u' ∧ (f p).Perm p ∧ g (f p) = p) ∧
    (∀ p, gam p = u' → gam (g p) = u ∧ (g p).Perm p ∧ f (g p) = p) := by
  induction h with
  | nil => exact ⟨id, id, fun p h => ⟨h, List.Perm.refl _, rfl⟩, fun p h => ⟨h, List.Perm.refl _, rfl⟩⟩
  | cons a _ ih =>
    obtain ⟨f, g, hf, hg⟩ := ih
    let c (f : List (Nat × Nat) → List (Nat × Nat)) (p : List (Nat × Nat)) : List (Nat × Nat) :=
      match p with | [] => [] | q :: t => q :: f t
    refine ⟨c f, c g, ?_, ?_⟩
    · intro p hp
      match p, hp with
      | q :: t, hp =>
        simp only [gam, List.map_cons, List.cons.injEq] at hp
        obtain ⟨h1, h2, h3⟩ := hf t hp.2
        refine ⟨?_, h2.cons _, ?_⟩
        · simp only [c, gam, List.map_cons, hp.1]; rw [← h1]; rfl
        · simp only [c, h3]
    · intro p hp
      match p, hp with
      | q :: t, hp =>
        simp only [gam, List.map_cons, List.cons.injEq] at hp
        obtain ⟨h1, h2, h3⟩ := hg t hp.2
        refine ⟨?_, h2.cons _, ?_⟩
        · simp only [c, gam, List.map_cons, hp.1]; rw [← h1]; rfl
        · simp only [c, h3]
  | swap a b l =>
    let c (p : List (Nat × Nat)) : List (Nat × Nat) := match p with | q :: r :: t => r :: q :: t | _ => p
    refine ⟨c, c, ?_, ?_⟩ <;>
    · intro p hp
      match p, hp with
      | q :: r :: t, hp =>
        simp only [gam, List.map_cons, List.cons.injEq] at hp
        refine ⟨?_, List.Perm.swap _ _ _, rfl⟩
        simp only [c, gam, List.map_cons, hp.1, hp.2.1, hp.2.2]
  | trans _ _ ih1 ih2 =>
    obtain ⟨f1, g1, hf1, hg1⟩ := ih1
    obtain ⟨f2, g2, hf2, hg2⟩ := ih2
    refine ⟨f2 ∘ f1, g1 ∘ g2, ?_, ?_⟩
    · intro p hp
      obtain ⟨h1, h2, h3⟩ := hf1 p hp
      obtain ⟨h4, h5, h6⟩ := hf2 _ h1
      exact ⟨h4, h5.trans h2, by simp only [Function.comp_apply, h6, h3]⟩
    · intro p hp
      obtain ⟨h1, h2, h3⟩ := hg2 p hp
      obtain ⟨h4, h5, h6⟩ := hg1 _ h1
      exact ⟨h4, h5.trans h2, by simp only [Function.comp_apply, h6, h3]⟩

theorem npairs_perm {n : Nat} {mu nu u u' : List Nat} (hm : IsPartition mu) (hn : IsPartition nu) (h : u.Perm u') :
    npairs n mu nu u = npairs n mu nu u' := by
  obtain ⟨f, g, hf, hg⟩ := rearrange h
  have hinv : ∀ p q : List (Nat × Nat), q.Perm p → p ∈ pairs n mu nu → q ∈ pairs n mu nu := by
    intro p q hpq hp
    rw [mem_pairs hm hn] at hp ⊢
    exact ⟨hpq.length_eq.trans hp.1, ((hpq.map _).filter _).trans hp.2.1, ((hpq.map _).filter _).trans hp.2.2⟩
  unfold npairs
  refine Finset.card_nbij' f g ?_ ?_ ?_ ?_
  · intro p hp
    simp only [Finset.coe_filter, Set.mem_ofPred_eq] at hp ⊢
    obtain ⟨h1, h2, _⟩ := hf p hp.2
    exact ⟨hinv _ _ h2 hp.1, h1⟩
  · intro p hp
    simp only [Finset.coe_filter, Set.mem_ofPred_eq] at hp ⊢
    obtain ⟨h1, h2, _⟩ := hg p hp.2
    exact ⟨hinv _ _ h2 hp.1, h1⟩
  · intro p hp
    simp only [Finset.coe_filter, Set.mem_ofPred_eq] at hp
    exact (hf p hp.2).2.2
  · intro p hp
    simp only [Finset.coe_filter, Set.mem_ofPred_eq] at hp
    exact (hg p hp.2).2.2

theorem npairs_pad {n : Nat} (k : Nat) {mu nu u : List Nat} (hm : IsPartition mu) (hn : IsPartition nu)
    (hu : u.length = n) : npairs n mu nu u = npairs (n + k) mu nu (u ++ List.replicate k 0) := by
  unfold npairs
  have hmap : ∀ f : Nat × Nat → Nat, f (0, 0) = 0 → ∀ p : List (Nat × Nat),
      nz ((p ++ List.replicate k (0, 0)).map f) = nz (p.map f) := by
    intro f hf p
    rw [List.map_append, List.map_replicate, hf, nz_append, nz_replicate, List.append_nil]
  refine Finset.card_nbij' (fun p => p ++ List.replicate k (0, 0)) (fun p => p.take n) ?_ ?_ ?_ ?_
  · intro p hp
    simp only [Finset.coe_filter, Set.mem_ofPred_eq, mem_pairs hm hn] at hp ⊢
    refine ⟨⟨by simp [hp.1.1], ?_, ?_⟩, ?_⟩
    · rw [hmap _ rfl]; exact hp.1.2.1
    · rw [hmap _ rfl]; exact hp.1.2.2
    · rw [gam, List.map_append, List.map_replicate]
      congr 1
      exact hp.2
  · intro p hp
    simp only [Finset.coe_filter, Set.mem_ofPred_eq, mem_pairs hm hn] at hp ⊢
    have e : p = p.take n ++ List.replicate k (0, 0) := by
      conv_lhs => rw [← List.take_append_drop n p]
      congr 1
      rw [List.eq_replicate_iff]
      refine ⟨by simp [hp.1.1], ?_⟩
      intro q hq
      have h1 : gam (p.drop n) = List.replicate k 0 := by
        rw [gam, List.map_drop]
        have := hp.2
        rw [gam] at this
        rw [this, List.drop_left' hu]
      have h2 : q.1 + q.2 ∈ gam (p.drop n) := List.mem_map.2 ⟨q, hq, rfl⟩
      rw [h1] at h2
      have := List.eq_of_mem_replicate h2
      ext <;> simp <;> omega
    rw [e] at hp
    rw [hmap _ rfl, hmap _ rfl] at hp
    refine ⟨⟨by have := hp.1.1; simp at this; simp; omega, hp.1.2⟩, ?_⟩
    have h1 := hp.2
    rw [gam, List.map_append, List.map_replicate] at h1
    exact (List.append_inj' h1 (by simp)).1
  · intro p hp
    simp only [Finset.coe_filter, Set.mem_ofPred_eq, mem_pairs hm hn] at hp
    simp only
    rw [List.take_left' hp.1.1]
  · intro p hp
    simp only [Finset.coe_filter, Set.mem_ofPred_eq, mem_pairs hm hn] at hp
    simp only
    conv_rhs => rw [← List.take_append_drop n p]
    congr 1
    symm
    rw [List.eq_replicate_iff]
    refine ⟨by simp [hp.1.1], ?_⟩
    intro q hq
    have h1 : gam (p.drop n) = List.replicate k 0 := by
      rw [gam, List.map_drop]
      have := hp.2
      rw [gam] at this
      rw [this, List.drop_left' hu]
    have h2 : q.1 + q.2 ∈ gam (p.drop n) := List.mem_map.2 ⟨q, hq, rfl⟩
    rw [h1] at h2
    have := List.eq_of_mem_replicate h2
    ext <;> simp <;> omega

/-! ### the dict of `_multiply` -/

theorem isPartition_cast (u : List Nat) : isPartition (u.map (fun a : Nat => (a : Int))) = true ↔ u.Pairwise (· ≥ ·) := by
  rw [isPartition, Bool.and_eq_true]
  have h2 : ((u.map (fun a : Nat => (a : Int))).isEmpty || decide ((u.map (fun a : Nat => (a : Int))).getLastD 0 ≥ 0)) = true := by
    rcases List.eq_nil_or_concat u with rfl | ⟨l, a, rfl⟩
    · rfl
    · simp
  rw [h2]
  simp only [and_true, List.all_eq_true, List.mem_range, decide_eq_true_eq, List.length_map]
  have hg : ∀ i, (u.map (fun a : Nat => (a : Int))).getD i 0 = ((u.getD i 0 : Nat) : Int) := by
    intro i
    by_cases hi : i < u.length
    · rw [List.getD_eq_getElem _ _ (by simpa using hi), List.getD_eq_getElem _ _ hi]; simp
    · rw [List.getD_eq_default _ _ (by simp; omega), List.getD_eq_default _ _ (by omega)]; rfl
  simp only [hg]
  constructor
  · intro h
    have hs : ∀ i, u.getD (i + 1) 0 ≤ u.getD i 0 := by
      intro i
      by_cases hi : i < u.length - 1
      · have := h i hi; omega
      · rw [List.getD_eq_default u 0 (show u.length ≤ i + 1 by omega)]; omega
    rw [List.pairwise_iff_getElem]
    intro i j hi hj hij
    have := antitone_nat_of_succ_le (f := fun i => u.getD i 0) hs (le_of_lt hij)
    simp only at this
    rw [List.getD_eq_getElem _ _ hi, List.getD_eq_getElem _ _ hj] at this
    exact this
  · intro h i _
    have := getD_antitone h (show i ≤ i + 1 by omega)
    simp only at this
    omega

theorem trim_eq_iff {u g : List Nat} (hs : u.Pairwise (· ≥ ·)) :
    trim u = g ↔ IsPartition g ∧ g.length ≤ u.length ∧ u = g ++ List.replicate (u.length - g.length) 0 := by
  have hu : u = nz u ++ List.replicate (u.length - (nz u).length) 0 := by
    refine List.Perm.eq_of_pairwise (le := (· ≥ ·)) (fun _ _ _ _ h1 h2 => le_antisymm h2 h1) hs ?_ (perm_nz_pad u)
    rw [List.pairwise_append]
    refine ⟨hs.filter _, by rw [List.pairwise_replicate]; right; exact le_rfl, ?_⟩
    intro a _ b hb
    rw [List.eq_of_mem_replicate hb]; omega
  have ht : trim u = nz u := by
    conv_lhs => rw [hu]
    rw [trim, List.reverse_append, List.reverse_replicate]
    generalize u.length - (nz u).length = k
    have hpos : ∀ a ∈ (nz u).reverse, a ≠ 0 := by
      intro a ha
      simpa using (List.mem_filter.1 (List.mem_reverse.1 ha)).2
    have : ∀ k, (List.replicate k 0 ++ (nz u).reverse).dropWhile (· == 0) = (nz u).reverse := by
      intro k
      induction k with
      | zero =>
        rw [List.replicate_zero, List.nil_append]
        match h : (nz u).reverse with
        | [] => rfl
        | a :: t =>
          have := hpos a (by rw [h]; simp)
          simp [this]
      | succ k ih => rw [List.replicate_succ, List.cons_append, List.dropWhile_cons]; simpa using ih
    rw [this, List.reverse_reverse]
  rw [ht]
  constructor
  · rintro rfl
    exact ⟨⟨hs.filter _, fun a ha => by have := (List.mem_filter.1 ha).2; simp at this; omega⟩,
      List.length_filter_le _ _, hu⟩
  · rintro ⟨h1, _, h3⟩
    rw [h3, nz_append, nz_replicate, List.append_nil, nz_eq_self h1.2]

theorem gam_zip {n : Nat} {v w : List Nat} (hv : v.length = n) (hw : w.length = n) :
    (List.range n).map (fun i => v.getD i 0 + w.getD i 0) = gam (v.zip w) := by
  refine List.ext_getElem (by simp [gam, hv, hw]) ?_
  intro i h1 h2
  simp only [List.length_map, List.length_range] at h1
  rw [List.getElem_map, List.getElem_range, List.getD_eq_getElem _ _ (by omega), List.getD_eq_getElem _ _ (by omega)]
  simp [gam]

theorem getD_multiplyAt {n : Nat} {mu nu : List Nat} (hm : IsPartition mu) (hn : IsPartition nu) (g : List Nat) :
    ((IsPartition g ∧ g.length ≤ n) → (multiplyAt n mu nu).getD g 0 =
      npairs n mu nu (g ++ List.replicate (n - g.length) 0)) ∧
    (¬ (IsPartition g ∧ g.length ≤ n) → (multiplyAt n mu nu).getD g 0 = 0) := by
  classical
  have hstep : ∀ v ∈ destandardize n mu, ∀ w ∈ destandardize n nu, ∀ ans,
      (multiplyStep n v w ans).getD g 0 = ans.getD g 0 +
        if (IsPartition g ∧ g.length ≤ n) ∧ gam (v.zip w) = g ++ List.replicate (n - g.length) 0 then 1 else 0 := by
    intro v hv w hw ans
    rw [mem_destandardize n hm] at hv
    rw [mem_destandardize n hn] at hw
    rw [multiplyStep, gam_zip hv.1 hw.1]
    have hlen : (gam (v.zip w)).length = n := by simp [gam, hv.1, hw.1]
    have hpad : IsPartition g → (g ++ List.replicate (n - g.length) 0).Pairwise (· ≥ ·) := by
      intro hg
      rw [List.pairwise_append]
      refine ⟨hg.1, by rw [List.pairwise_replicate]; right; exact le_rfl, ?_⟩
      intro a _ b hb
      rw [List.eq_of_mem_replicate hb]; omega
    by_cases hp : isPartition ((gam (v.zip w)).map (fun a : Nat => (a : Int))) = true
    · rw [if_pos hp, Tableaux.bump, Dict.getD_set]
      have hs := (isPartition_cast _).1 hp
      have ht := trim_eq_iff (g := g) hs
      rw [hlen] at ht
      by_cases he : trim (gam (v.zip w)) = g
      · have := ht.1 he
        rw [if_pos he, if_pos ⟨⟨this.1, this.2.1⟩, this.2.2⟩, he]
      · rw [if_neg he, if_neg, add_zero]
        rintro ⟨⟨h1, h2⟩, h3⟩
        exact he (ht.2 ⟨h1, h2, h3⟩)
    · rw [if_neg hp, if_neg, add_zero]
      rintro ⟨⟨h1, h2⟩, h3⟩
      exact hp ((isPartition_cast _).2 (by rw [h3]; exact hpad h1))
  have key : (multiplyAt n mu nu).getD g 0 = ∑ p ∈ pairs n mu nu,
      if (IsPartition g ∧ g.length ≤ n) ∧ gam p = g ++ List.replicate (n - g.length) 0 then (1 : Int) else 0 := by
    rw [sum_pairs hm hn, multiplyAt, Tableaux.foldl_getD _ _ g (fun v => ((destandardize n nu).map (fun w =>
      if (IsPartition g ∧ g.length ≤ n) ∧ gam (v.zip w) = g ++ List.replicate (n - g.length) 0
        then (1 : Int) else 0)).sum)]
    · simp
    · intro v hv ans
      exact Tableaux.foldl_getD _ _ g _ (fun w hw ans => hstep v hv w hw ans) ans
  constructor
  · intro hg
    rw [key, npairs, Finset.card_filter]
    push_cast
    exact Finset.sum_congr rfl (fun p _ => by simp [hg])
  · intro hg
    rw [key]
    exact Finset.sum_eq_zero (fun p _ => by rw [if_neg (fun h => hg h.1)])

theorem multiplyAt_keys {n : Nat} {mu nu : List Nat} (hm : IsPartition mu) (hn : IsPartition nu) :
    ∀ g ∈ (multiplyAt n mu nu).keys, IsPartition g ∧ g.length ≤ n := by
  have hinv : ∀ (l : List (List Nat)) (step : Dict (List Nat) Int → List Nat → Dict (List Nat) Int),
      (∀ w ∈ l, ∀ ans : Dict (List Nat) Int, (∀ g ∈ ans.keys, IsPartition g ∧ g.length ≤ n) →
        ∀ g ∈ (step ans w).keys, IsPartition g ∧ g.length ≤ n) →
      ∀ ans : Dict (List Nat) Int, (∀ g ∈ ans.keys, IsPartition g ∧ g.length ≤ n) →
        ∀ g ∈ (l.foldl step ans).keys, IsPartition g ∧ g.length ≤ n := by
    intro l step
    induction l with
    | nil => intro _ ans h; exact h
    | cons a l ih =>
      intro hs ans h
      rw [List.foldl_cons]
      exact ih (fun w hw => hs w (by simp [hw])) _ (hs a (by simp) ans h)
  rw [multiplyAt]
  refine hinv _ _ (fun v hv ans h => hinv _ _ (fun w hw ans h => ?_) ans h) _ (by simp [Dict.keys, Dict.empty])
  rw [mem_destandardize n hm] at hv
  rw [mem_destandardize n hn] at hw
  intro g hg
  simp only [multiplyStep] at hg
  rw [gam_zip hv.1 hw.1] at hg
  split at hg
  · rename_i hp
    rcases Tableaux.mem_keys_bump hg with rfl | hg
    · have := (trim_eq_iff ((isPartition_cast _).1 hp)).1 rfl
      refine ⟨this.1, this.2.1.trans ?_⟩
      simp [gam, hv.1, hw.1]
    · exact h g hg
  · exact h g hg

/-- The product of monomial symmetric functions, in any commutative ring. -/
theorem msum_mul (x : Nat → A) (n : Nat) {mu nu : List Nat} (hm : IsPartition mu) (hn : IsPartition nu) :
    msum x n mu * msum x n nu =
      ((multiply n mu nu).items.map (fun gc => (gc.2 : A) * msum x n gc.1)).sum := by
  classical
  set n' := min n (mu.length + nu.length) with hn'
  have hle : n' ≤ n := by omega
  have hkeys : ∀ g ∈ (multiply n mu nu).keys, IsPartition g ∧ g.length ≤ n' := multiplyAt_keys hm hn
  -- the value at a key
  have hval : ∀ g, IsPartition g → g.length ≤ n' → ∀ u, u ∈ destandardize n g →
      (multiply n mu nu).getD g 0 = npairs n mu nu u := by
    intro g hg hgl u hu
    rw [mem_destandardize n hg] at hu
    rw [multiply, (getD_multiplyAt hm hn g).1 ⟨hg, hgl⟩, npairs_pad (n - n') hm hn (by simp; omega)]
    rw [show n' + (n - n') = n by omega]
    congr 1
    apply npairs_perm hm hn
    have h1 := perm_nz_pad u
    rw [List.append_assoc, List.replicate_append_replicate]
    refine List.Perm.symm (h1.trans ?_)
    rw [hu.2.length_eq, hu.1, show n' - g.length + (n - n') = n - g.length by omega]
    exact hu.2.append_right _
  -- left side
  have hL : msum x n mu * msum x n nu = ∑ p ∈ pairs n mu nu, xm x 1 (gam p) := by
    rw [sum_pairs hm hn, msum, msum, ← List.sum_map_mul_right]
    refine congrArg List.sum (List.map_congr_left (fun v hv => ?_))
    rw [← List.sum_map_mul_left]
    refine congrArg List.sum (List.map_congr_left (fun w hw => ?_))
    rw [mem_destandardize n hm] at hv
    rw [mem_destandardize n hn] at hw
    rw [xm_gam, List.map_fst_zip (by omega), List.map_snd_zip (by omega)]
  have hR : ((multiply n mu nu).items.map (fun gc => (gc.2 : A) * msum x n gc.1)).sum =
      ∑ g ∈ (multiply n mu nu).keys.toFinset, ∑ u ∈ (destandardize n g).toFinset,
        ∑ p ∈ pairs n mu nu, if gam p = u then xm x 1 (gam p) else 0 := by
    rw [List.sum_toFinset (l := (multiply n mu nu).keys) _ (multiply n mu nu).nodup, Dict.items_eq_map _ 0, List.map_map]
    refine congrArg List.sum (List.map_congr_left (fun g hg => ?_))
    obtain ⟨hg1, hg2⟩ := hkeys g hg
    simp only [Function.comp_apply]
    rw [msum_eq _ _ hg1, Finset.mul_sum]
    refine Finset.sum_congr rfl (fun u hu => ?_)
    rw [List.mem_toFinset] at hu
    rw [hval g hg1 hg2 u hu, npairs, Finset.card_filter]
    push_cast
    rw [Finset.sum_mul]
    refine Finset.sum_congr rfl (fun p _ => ?_)
    split
    · rename_i h; rw [h, one_mul]
    · simp
  rw [hL, hR]
  have hswap : ∑ g ∈ (multiply n mu nu).keys.toFinset, ∑ u ∈ (destandardize n g).toFinset,
        ∑ p ∈ pairs n mu nu, (if gam p = u then xm x 1 (gam p) else 0) =
      ∑ p ∈ pairs n mu nu, ∑ g ∈ (multiply n mu nu).keys.toFinset, ∑ u ∈ (destandardize n g).toFinset,
        (if gam p = u then xm x 1 (gam p) else 0) := by
    exact (Finset.sum_congr rfl (fun g _ => Finset.sum_comm)).trans Finset.sum_comm
  rw [hswap]
  refine Finset.sum_congr rfl (fun p hp => ?_)
  have hp' := (mem_pairs hm hn p).1 hp
  set g0 := sortTrim (gam p) with hg0
  have hg0p : IsPartition g0 := sortTrim_isPartition _
  have hlen : (gam p).length = n := by simp [gam, hp'.1]
  have hmem0 : gam p ∈ destandardize n g0 := (mem_destandardize n hg0p _).2 ⟨hlen, sortTrim_perm _⟩
  have hlen0 : g0.length ≤ n' := by
    have h1 : (nz (gam p)).length = g0.length := (sortTrim_perm _).length_eq
    have h2 : (nz (gam p)).length ≤ (gam p).length := List.length_filter_le _ _
    have h3 : (nz (gam p)).length ≤ (nz (p.map Prod.fst)).length + (nz (p.map Prod.snd)).length := by
      clear hp hp' hg0 hg0p hlen hmem0 h1 h2 g0
      induction p with
      | nil => simp [gam]
      | cons q p ih =>
        have e : gam (q :: p) = (q.1 + q.2) :: gam p := rfl
        rw [e, List.map_cons, List.map_cons]
        by_cases h1 : q.1 = 0 <;> by_cases h2 : q.2 = 0
        · rw [h1, h2]; simpa using ih
        · rw [h1, nz_zero, nz_pos h2, nz_pos (by omega)]; simp only [List.length_cons]; omega
        · rw [h2, nz_zero, nz_pos h1, nz_pos (by omega)]; simp only [List.length_cons]; omega
        · rw [nz_pos h1, nz_pos h2, nz_pos (by omega)]; simp only [List.length_cons]; omega
    rw [hp'.2.1.length_eq, hp'.2.2.length_eq] at h3
    omega
  have hkey0 : g0 ∈ (multiply n mu nu).keys := by
    by_contra hc
    have h1 := hval g0 hg0p hlen0 _ hmem0
    rw [Dict.getD_of_notMem hc] at h1
    have h2 : 0 < npairs n mu nu (gam p) := Finset.card_pos.2 ⟨p, by simp [hp]⟩
    omega
  rw [Finset.sum_eq_single g0]
  · rw [Finset.sum_eq_single (gam p)]
    · simp
    · intro u _ hu; rw [if_neg (fun h => hu h.symm)]
    · intro h; exact absurd (List.mem_toFinset.2 hmem0) h
  · intro g hg hne
    refine Finset.sum_eq_zero (fun u hu => ?_)
    rw [if_neg]
    rintro rfl
    rw [List.mem_toFinset] at hg hu
    have hgp := (hkeys g hg).1
    rw [mem_destandardize n hgp] at hu
    exact hne ((sortTrim_eq_iff hgp).2 hu.2).symm
  · intro h; exact absurd (List.mem_toFinset.2 hkey0) h

end Verif.Symm
