import Verif.Lemmas.Expansion
import Mathlib.Data.Set.Finite.List
import Mathlib.Data.Finite.Defs

/-! The families expanded by `schur_expansion`, `grothendieck_expansion` and `mn_grothendieck_expansion`. -/

namespace Verif.Symm

open Verif.Part Partition Tableaux

attribute [-simp] List.getD_eq_getElem?_getD

/-! ### the order -/

/-- Lower degree first, then lexicographically larger first. -/
def before (a b : List Nat) : Prop := a.sum < b.sum ∨ (a.sum = b.sum ∧ b < a)

theorem before_trans {a b c : List Nat} (h1 : before a b) (h2 : before b c) : before a c := by
  rcases h1 with h1 | ⟨h1, h1'⟩ <;> rcases h2 with h2 | ⟨h2, h2'⟩
  · left; omega
  · left; omega
  · left; omega
  · right; exact ⟨by omega, List.lt_trans h2' h1'⟩

theorem before_irrefl (a : List Nat) : ¬ before a a := by
  rintro (h | ⟨_, h⟩)
  · omega
  · exact List.lt_irrefl a h

theorem lt_of_not_lt {a b : List Nat} (h : ¬ a < b) (hne : b ≠ a) : b < a := by
  by_contra hc
  exact hne (List.le_antisymm (List.not_lt.1 h) (List.not_lt.1 hc))

theorem foldl_max_spec (l : List (List Nat)) (a : List Nat) :
    (l.foldl (fun m k => if m < k then k else m) a = a ∨ l.foldl (fun m k => if m < k then k else m) a ∈ l) ∧
    (¬ l.foldl (fun m k => if m < k then k else m) a < a) ∧
    ∀ k ∈ l, ¬ l.foldl (fun m k => if m < k then k else m) a < k := by
  induction l generalizing a with
  | nil => exact ⟨Or.inl rfl, List.lt_irrefl a, by simp⟩
  | cons b l ih =>
    obtain ⟨h1, h2, h3⟩ := ih (if a < b then b else a)
    rw [List.foldl_cons]
    generalize hM : l.foldl (fun m k => if m < k then k else m) (if a < b then b else a) = M at *
    split at h1
    · rename_i hab
      rw [if_pos hab] at h2
      refine ⟨?_, ?_, ?_⟩
      · rcases h1 with h1 | h1
        · right; rw [h1]; simp
        · right; simp [h1]
      · intro hc; exact h2 (List.lt_trans hc hab)
      · intro k hk
        rcases List.mem_cons.1 hk with rfl | hk
        · exact h2
        · exact h3 k hk
    · rename_i hab
      rw [if_neg hab] at h2
      refine ⟨?_, h2, ?_⟩
      · rcases h1 with h1 | h1
        · left; exact h1
        · right; simp [h1]
      · intro k hk
        rcases List.mem_cons.1 hk with rfl | hk
        · intro hc
          by_cases hka : k = a
          · rw [hka] at hc; exact h2 hc
          · exact h2 (List.lt_trans hc (lt_of_not_lt hab hka))
        · exact h3 k hk

theorem foldl_min_spec (l : List Nat) (a : Nat) :
    (l.foldl min a = a ∨ l.foldl min a ∈ l) ∧ l.foldl min a ≤ a ∧ ∀ k ∈ l, l.foldl min a ≤ k := by
  induction l generalizing a with
  | nil => simp
  | cons b l ih =>
    obtain ⟨h1, h2, h3⟩ := ih (min a b)
    rw [List.foldl_cons]
    generalize l.foldl min (min a b) = M at *
    refine ⟨?_, by omega, ?_⟩
    · rcases h1 with h1 | h1
      · by_cases hab : a ≤ b
        · left; omega
        · right; rw [List.mem_cons]; left; omega
      · right; simp [h1]
    · intro k hk
      rcases List.mem_cons.1 hk with rfl | hk
      · omega
      · exact h3 k hk

/-- The `m` of `lowest_degree_terms`. -/
def lowestDegree (f : SymPoly) : Nat :=
  match f.dict.keys.map List.sum with
  | [] => 0
  | d :: ds => ds.foldl min d

theorem findsFirst_lowest (n : Nat) : FindsFirst n (termFromLowest n) before := by
  intro f hf hz hlen
  obtain ⟨m, hm⟩ : ∃ m, lowestDegree f = m := ⟨_, rfl⟩
  obtain ⟨g, hg⟩ : ∃ g, lowestDegreeTerms n f = g := ⟨_, rfl⟩
  have hget : ∀ k, g.get k = if k.sum = m then f.get k else 0 := by
    intro k
    rw [← hg, ← hm, lowestDegreeTerms, mkSym, Vec.get_mk', getD_filter]
    simp only [decide_eq_true_eq]
    rfl
  have hgz : Vec.NoZero g := by rw [← hg]; exact Vec.noZero_mk' _ _
  have hmem : ∀ k, f.get k ≠ 0 ↔ k ∈ f.dict.keys := fun k => (Vec.mem_keys_iff hz k).symm
  have hmin : (∃ k ∈ f.dict.keys, k.sum = m) ∧ ∀ k ∈ f.dict.keys, m ≤ k.sum := by
    cases hks : f.dict.keys with
    | nil =>
      exfalso; apply hlen
      rw [Vec.len_zero_iff hz]
      intro k
      by_contra hk
      rw [← ne_eq, hmem, hks] at hk
      simp at hk
    | cons k0 ks =>
      rw [lowestDegree, hks, List.map_cons] at hm
      obtain ⟨h1, h2, h3⟩ := foldl_min_spec (ks.map List.sum) k0.sum
      simp only at hm
      rw [hm] at h1 h2 h3
      refine ⟨?_, fun k hk => ?_⟩
      · rcases h1 with h1 | h1
        · exact ⟨k0, by simp, h1.symm⟩
        · obtain ⟨k, hk, hk'⟩ := List.mem_map.1 h1
          exact ⟨k, by simp [hk], hk'⟩
      · rcases List.mem_cons.1 hk with rfl | hk
        · exact h2
        · exact h3 _ (List.mem_map_of_mem hk)
  obtain ⟨⟨k1, hk1, hk1m⟩, hall⟩ := hmin
  have hgk : ∀ k, k ∈ g.dict.keys ↔ k ∈ f.dict.keys ∧ k.sum = m := by
    intro k
    rw [Vec.mem_keys_iff hgz, hget, ← hmem]
    split
    · rename_i h; exact ⟨fun h' => ⟨h', h⟩, fun h' => h'.1⟩
    · rename_i h; exact ⟨fun h' => absurd rfl h', fun h' => absurd h'.2 h⟩
  rw [termFromLowest, hg, maxKey]
  cases hks : g.dict.keys with
  | nil =>
    have := (hgk k1).2 ⟨hk1, hk1m⟩
    rw [hks] at this; simp at this
  | cons k0 ks =>
    obtain ⟨h1, h2, h3⟩ := foldl_max_spec ks k0
    simp only
    generalize ks.foldl (fun m k => if m < k then k else m) k0 = t at *
    have ht : t ∈ g.dict.keys := by
      rw [hks]
      rcases h1 with h1 | h1
      · simp [h1]
      · simp [h1]
    have ht' := (hgk t).1 ht
    refine ⟨t, rfl, (hmem t).2 ht'.1, fun k hk hkt => ?_⟩
    rw [hmem] at hk
    by_cases hkm : k.sum = m
    · right
      refine ⟨by rw [ht'.2, hkm], lt_of_not_lt ?_ hkt⟩
      have := (hgk k).2 ⟨hk, hkm⟩
      rw [hks] at this
      rcases List.mem_cons.1 this with rfl | h
      · exact h2
      · exact h3 k h
    · left
      have := hall k hk
      have := ht'.2
      omega

/-! ### families counted by tableaux -/

/-- `function(n, mu)` is the sum over tableaux of shape `mu`, with a factor `w` for each entry more than boxes. -/
def IsFamily (n : Nat) (sv : Bool) (w : PolyVal) (function : List Nat → Option SymPoly) : Prop :=
  ∀ mu, IsPartition mu → ∃ g, function mu = some g ∧ IsSym n g ∧
    ∀ k, g.get k = ((countSemistandard sv [] n mu).getD k 0 : PolyVal) * w ^ (k.sum - mu.sum)

theorem isPartition_nil : IsPartition [] := ⟨by simp, by simp⟩

theorem sum_range_length {k : List Nat} {n : Nat} (h : k.length ≤ n) :
    ∑ i ∈ Finset.range n, k.getD i 0 = k.sum := (sum_eq_range k h).symm

theorem count_support {sv : Bool} {n : Nat} {mu k : List Nat} (hm : IsPartition mu)
    (h : (countSemistandard sv [] n mu).getD k 0 ≠ 0) :
    IsPartition k ∧ k.length ≤ n ∧ mu.length ≤ n ∧ (∀ i < n, k.getD i 0 ≤ mu.getD 0 0) ∧ mu.sum ≤ k.sum ∧
      (k ≠ mu → before mu k) ∧ (sv = false → k.sum = mu.sum) := by
  by_cases hk : IsPartition k ∧ k.length ≤ n
  swap
  · exact absurd ((count_spec isPartition_nil n hm k).2 hk) h
  rw [(count_spec isPartition_nil n hm k).1 hk] at h
  obtain ⟨h1, h2, h3, h4, h5⟩ := tabCount_support hm h
  rw [sum_range_length hk.2] at h3 h4 h5
  refine ⟨hk.1, hk.2, h1, h2, h3, fun hne => ?_, h5⟩
  by_cases hs : mu.sum < k.sum
  · exact Or.inl hs
  · have hs : k.sum = mu.sum := by omega
    right
    refine ⟨hs.symm, ?_⟩
    rcases lex_of_dominance (a := mu) (b := k) hk.1.2 (fun j => by
        by_cases hj : j ≤ n
        · exact h4 hs j hj
        · rw [sum_range_length (by omega), sum_range_length (by omega)]; omega) with h | h
    · exact absurd h hne
    · exact h

theorem count_self {sv : Bool} {n : Nat} {mu : List Nat} (hm : IsPartition mu) (hl : mu.length ≤ n) :
    (countSemistandard sv [] n mu).getD mu 0 = 1 := by
  rw [(count_spec isPartition_nil n hm mu).1 ⟨hm, hl⟩, tabCount_self hm hl]

theorem betaOnly_one : BetaOnly 1 := by simpa using betaOnly_int 1

theorem betaOnly_pow {z : Laurent} (hz : BetaOnly z) (k : Nat) : BetaOnly (z ^ k) := by
  induction k with
  | zero => rw [pow_zero]; exact betaOnly_one
  | succ k ih => rw [pow_succ]; exact betaOnly_mul ih hz

theorem family_count {n : Nat} {sv : Bool} {w : PolyVal} {function : List Nat → Option SymPoly}
    (hF : IsFamily n sv w function) {mu : List Nat} (hm : IsPartition mu) {k : List Nat}
    (hk : fden function mu k ≠ 0) : (countSemistandard sv [] n mu).getD k 0 ≠ 0 := by
  obtain ⟨g, h1, _, h3⟩ := hF mu hm
  rw [fden, h1, Option.map_some, Option.getD_some, Vec.den_apply, h3] at hk
  intro h
  rw [h] at hk
  simp at hk

theorem family_triangular {n : Nat} {sv : Bool} {w : PolyVal} (hw : BetaOnly w.den)
    {function : List Nat → Option SymPoly} (hF : IsFamily n sv w function) : Triangular n function before := by
  refine ⟨before_trans, before_irrefl, fun mu hm hl => ?_⟩
  obtain ⟨g, h1, h2, h3⟩ := hF mu hm
  refine ⟨g, h1, h2, ?_, fun k => ?_, fun k hk hne => ?_⟩
  · rw [h3, count_self hm hl]; simp
  · rw [h3, PolyVal.den_mul, PolyVal.den_intCast, PolyVal.den_pow]
    exact betaOnly_mul (betaOnly_int _) (betaOnly_pow hw _)
  · refine (count_support hm (sv := sv) (n := n) (k := k) ?_).2.2.2.2.2.1 hne
    intro h
    rw [h3, h] at hk
    simp at hk

/-- A finite set of partitions. -/
theorem box_finite (n D : Nat) : {k : List Nat | k.length ≤ n ∧ ∀ a ∈ k, a ≤ D}.Finite := by
  refine Set.Finite.subset ((List.finite_length_le (Fin (D + 1)) n).image (List.map Fin.val)) ?_
  rintro k ⟨h1, h2⟩
  refine ⟨k.map (fun a => Fin.ofNat (D + 1) a), by simpa using h1, ?_⟩
  rw [List.map_map]
  conv_rhs => rw [← List.map_id k]
  refine List.map_congr_left (fun a ha => ?_)
  have := h2 a ha
  simp only [Function.comp_apply, Fin.ofNat_eq_cast, Fin.val_natCast, id_eq]
  exact Nat.mod_eq_of_lt (by omega)

theorem first_part_le {k : List Nat} (hk : IsPartition k) {D : Nat} (h : k.getD 0 0 ≤ D) : ∀ a ∈ k, a ≤ D := by
  intro a ha
  cases k with
  | nil => simp at ha
  | cons b k =>
    have hb : b ≤ D := h
    rcases List.mem_cons.1 ha with rfl | ha
    · exact hb
    · exact (List.rel_of_pairwise_cons hk.1 ha).trans hb

/-- The expansion in a family of tableau generating functions. -/
theorem family_expansion {n : Nat} {sv : Bool} {w : PolyVal} (hw : BetaOnly w.den)
    {function : List Nat → Option SymPoly} (hF : IsFamily n sv w function) {f : SymPoly} (hf : IsSym n f)
    (hz : Vec.NoZero f) (hb : ∀ k, BetaOnly (f.get k).den) :
    ∃ N ans, (∀ fuel ≥ N, expansion function (termFromLowest n) fuel f = some ans) ∧
      f.den = combine function ans.den ∧ (∀ k, ans.get k ≠ 0 → IsPartition k ∧ k.length ≤ n) ∧
      (∀ k, BetaOnly (ans.get k).den) ∧ Vec.NoZero ans := by
  classical
  obtain ⟨D, hD⟩ : ∃ D, ∀ k ∈ f.dict.keys, k.getD 0 0 ≤ D := by
    have : ∀ l : List (List Nat), ∃ D, ∀ k ∈ l, k.getD 0 0 ≤ D := by
      intro l
      induction l with
      | nil => exact ⟨0, by simp⟩
      | cons a l ih =>
        obtain ⟨D, hD⟩ := ih
        refine ⟨max (a.getD 0 0) D, fun k hk => ?_⟩
        rcases List.mem_cons.1 hk with rfl | hk
        · omega
        · have := hD k hk; omega
    exact this _
  obtain ⟨S, hS⟩ : ∃ S : Finset (List Nat), ∀ k, k ∈ S ↔ (k.length ≤ n ∧ ∀ a ∈ k, a ≤ D) ∧ IsPartition k :=
    ⟨(box_finite n D).toFinset.filter IsPartition, fun k => by simp⟩
  obtain ⟨N, ans, h1, h2⟩ := expansion_exists (family_triangular hw hF) (findsFirst_lowest n) S
    (fun mu hmu => ⟨((hS mu).1 hmu).2, ((hS mu).1 hmu).1.1⟩)
    (fun mu hmu k hk => by
      have hmu := (hS mu).1 hmu
      obtain ⟨c1, c2, c3, c4, -⟩ := count_support hmu.2 (family_count hF hmu.2 hk)
      refine (hS k).2 ⟨⟨c2, ?_⟩, c1⟩
      apply first_part_le c1
      by_cases h0 : 0 < n
      · refine (c4 0 h0).trans ?_
        cases mu with
        | nil => simp
        | cons a mu => exact hmu.1.2 a (by simp)
      · obtain rfl : k = [] := List.length_eq_zero_iff.1 (by omega)
        simp) f hf hz hb (fun k hk => by
      rw [← Vec.mem_keys_iff hz] at hk
      have := hf.keys k hk
      exact (hS k).2 ⟨⟨this.2, first_part_le this.1 (hD k hk)⟩, this.1⟩)
  refine ⟨N, ans, h1, h2.eq, fun k hk => ?_, h2.beta, h2.noZero⟩
  rw [← Vec.mem_keys_iff h2.noZero] at hk
  have := (hS k).1 (h2.keys k hk)
  exact ⟨this.2, this.1.1⟩

/-! ### polynomials -/

theorem phi_combine (x : Nat → Laurent) (n : Nat) (function : List Nat → Option SymPoly) (u : List Nat →₀ PolyVal) :
    phi x n (combine function u) = u.sum (fun mu c => c.den * phi x n (fden function mu)) := by
  induction u using Finsupp.induction_linear with
  | zero => simp [combine]
  | add u v hu hv =>
    rw [combine_add, phi_add, hu, hv, Finsupp.sum_add_index' (fun _ => by simp)
      (fun _ _ _ => by rw [PolyVal.den_add, add_mul])]
  | single mu c => rw [combine_single, phi_smul, Finsupp.sum_single_index (by simp)]

/-- The sum over tableaux. -/
theorem phi_family {n : Nat} {sv : Bool} {w : PolyVal} {function : List Nat → Option SymPoly}
    (hF : IsFamily n sv w function) {mu : List Nat} (hm : IsPartition mu) (v : Int → Poly) :
    phi (xden v) n (fden function mu) = ∑ T ∈ semistandard sv [] n mu,
      w.den ^ (T.entries.length - T.items.length) * xm (xden v) 1 (wt n T) := by
  obtain ⟨g, h1, _, h3⟩ := hF mu hm
  rw [phi_tableaux v sv n hm isPartition_nil _ (fun s => w ^ (s - mu.sum))]
  · refine Finset.sum_congr rfl (fun T hT => ?_)
    have hSV := (mem_semistandard isPartition_nil n hm T).1 hT
    have := boxes_length hSV.2 hSV.1
    rw [sum_wt hSV.2, PolyVal.den_pow]
    congr 3
    simp only [List.sum_nil] at this
    omega
  · intro k hk
    rw [fden, h1, Option.map_some, Option.getD_some, Vec.den_apply, h3, (count_spec isPartition_nil n hm k).1 hk]
  · intro k hk
    rw [fden, h1, Option.map_some, Option.getD_some, Vec.den_apply, h3, (count_spec isPartition_nil n hm k).2 hk]
    simp

theorem freeOf_betaOnly {n : Nat} {z : Laurent} (h : BetaOnly z) : FreeOf n z := by
  intro e he i _
  obtain ⟨k, rfl⟩ := h e he
  rw [Finsupp.single_apply, if_neg (by omega)]

theorem betaOnly_sum {ι : Type*} (s : Finset ι) (F : ι → Laurent) (h : ∀ i ∈ s, BetaOnly (F i)) :
    BetaOnly (∑ i ∈ s, F i) := by
  classical
  induction s using Finset.induction_on with
  | empty => simpa using betaOnly_zero
  | insert a s ha ih =>
    rw [Finset.sum_insert ha]
    exact betaOnly_add (h a (by simp)) (ih (fun i hi => h i (by simp [hi])))

theorem den_finsum {ι : Type*} (s : Finset ι) (F : ι → PolyVal) : (∑ i ∈ s, F i).den = ∑ i ∈ s, (F i).den := by
  classical
  induction s using Finset.induction_on with
  | empty => simp
  | insert a s ha ih => rw [Finset.sum_insert ha, Finset.sum_insert ha, PolyVal.den_add, ih]

theorem betaOnly_combine {n : Nat} {function : List Nat → Option SymPoly}
    {bef : List Nat → List Nat → Prop} (ht : Triangular n function bef)
    {u : List Nat →₀ PolyVal} (hu : ∀ k, u k ≠ 0 → IsPartition k ∧ k.length ≤ n) (hb : ∀ k, BetaOnly (u k).den)
    (k : List Nat) : BetaOnly (combine function u k).den := by
  rw [combine, Finsupp.sum, Finsupp.finsetSum_apply, den_finsum]
  refine betaOnly_sum _ _ (fun mu hmu => ?_)
  obtain ⟨g, e1, _, _, e4, _⟩ := ht.family mu (hu mu (Finsupp.mem_support_iff.1 hmu)).1
    (hu mu (Finsupp.mem_support_iff.1 hmu)).2
  rw [Finsupp.smul_apply, smul_eq_mul, PolyVal.den_mul, fden, e1, Option.map_some, Option.getD_some, Vec.den_apply]
  exact betaOnly_mul (hb mu) (e4 k)

theorem combine_support {n : Nat} {function : List Nat → Option SymPoly}
    {bef : List Nat → List Nat → Prop} (ht : Triangular n function bef)
    {u : List Nat →₀ PolyVal} (hu : ∀ k, u k ≠ 0 → IsPartition k ∧ k.length ≤ n) {k : List Nat}
    (hk : combine function u k ≠ 0) : IsPartition k ∧ k.length ≤ n := by
  rw [combine, Finsupp.sum, Finsupp.finsetSum_apply] at hk
  obtain ⟨mu, hmu, h⟩ := Finset.exists_ne_zero_of_sum_ne_zero hk
  obtain ⟨g, e1, e2, _, _, _⟩ := ht.family mu (hu mu (Finsupp.mem_support_iff.1 hmu)).1
    (hu mu (Finsupp.mem_support_iff.1 hmu)).2
  rw [Finsupp.smul_apply, smul_eq_mul, fden, e1, Option.map_some, Option.getD_some] at h
  exact den_support e2 k (right_ne_zero_of_mul h)

/-- The coefficients are determined by the polynomial. -/
theorem combine_polynomial_injective {n : Nat} {function : List Nat → Option SymPoly}
    {bef : List Nat → List Nat → Prop} (ht : Triangular n function bef) {u v : List Nat →₀ PolyVal}
    (hu : ∀ k, u k ≠ 0 → IsPartition k ∧ k.length ≤ n) (hv : ∀ k, v k ≠ 0 → IsPartition k ∧ k.length ≤ n)
    (hub : ∀ k, BetaOnly (u k).den) (hvb : ∀ k, BetaOnly (v k).den)
    (h : phi (xden Poly.x) n (combine function u) = phi (xden Poly.x) n (combine function v)) : u = v := by
  apply combine_injective ht hu hv
  rw [← sub_eq_zero]
  apply phi_injective n
  · intro a ha
    by_cases h1 : combine function u a = 0
    · refine combine_support ht hv (k := a) (fun h2 => ha ?_)
      rw [Finsupp.sub_apply, h1, h2, sub_zero]
    · exact combine_support ht hu h1
  · intro a
    rw [Finsupp.sub_apply, PolyVal.den_sub]
    exact freeOf_betaOnly (betaOnly_sub (betaOnly_combine ht hu hub a) (betaOnly_combine ht hv hvb a))
  · have h3 : combine function u - combine function v = combine function u + (-1 : PolyVal) • combine function v := by
      rw [neg_one_smul, sub_eq_add_neg]
    rw [h3, phi_add, phi_smul, h]
    simp

/-! ### the three families -/

theorem family_schur (n : Nat) : IsFamily n false 1 (fun mu => schur n mu []) := by
  intro mu hm
  obtain ⟨f, h1, h2, _, h4, _⟩ := vectorize_tableaux Poly.x false n hm isPartition_nil none none
  refine ⟨f, h1, h2, fun k => ?_⟩
  rw [h4, if_pos (show within none k.sum from fun b hb => by simp at hb), signFactor, one_pow]

theorem xpow_nat (k : Nat) : Laurent.xpow 0 (k : ℤ) = (Laurent.xpow 0 1) ^ k := by
  rw [Laurent.xpow, Laurent.xpow, AddMonoidAlgebra.single_pow]
  congr 1
  · simp
  · simp

theorem den_beta : Poly.beta.den = Laurent.xpow 0 1 := Poly.den_monomial 0 1

theorem family_grothendieck (n : Nat) :
    IsFamily n true (PolyVal.mk Poly.beta) (fun mu => stableGrothendieck n mu [] none) := by
  intro mu hm
  obtain ⟨f, h1, h2, _, ⟨b, hb, h4⟩, _⟩ := stableGrothendieck_spec Poly.x n hm isPartition_nil none
  refine ⟨f, h1, h2, fun k => ?_⟩
  rw [h4, if_pos (show within none k.sum from fun b hb => by simp at hb)]
  by_cases hc : (countSemistandard true [] n mu).getD k 0 = 0
  · rw [hc]; simp
  · obtain ⟨_, _, _, _, hs, _⟩ := count_support hm hc
    rw [mul_assoc]
    congr 1
    apply PolyVal.den_injective
    rw [PolyVal.den_mul, signFactor_beta, hb, PolyVal.den_pow, PolyVal.den_mk, den_beta, ← xpow_nat, Laurent.xpow,
      Laurent.xpow, Laurent.xpow, AddMonoidAlgebra.single_mul_single, ← Finsupp.single_add]
    congr 2
    simp only [List.sum_nil]
    omega

theorem substitute_beta (c : ℤ) (k : Nat) :
    ((c : PolyVal) * PolyVal.mk Poly.beta ^ k).substitute 0 (Poly.neg Poly.beta) =
      some ((c : PolyVal) * (-PolyVal.mk Poly.beta) ^ k) := by
  obtain ⟨a, ha⟩ : ∃ a, (c : PolyVal) * PolyVal.mk Poly.beta ^ k = a := ⟨_, rfl⟩
  have hden : a.den = c • Laurent.xpow 0 k := by
    rw [← ha, PolyVal.den_mul, PolyVal.den_intCast, PolyVal.den_pow, PolyVal.den_mk, den_beta, ← xpow_nat, zsmul_eq_mul]
  rw [ha]
  clear ha
  induction a using Quotient.inductionOn with
  | h p =>
    change p.den = _ at hden
    obtain ⟨r, hr1, hr2⟩ := Poly.substitute_some (Poly.clean p) 0 (Poly.neg Poly.beta) (fun m hm => by
      rw [Poly.mem_keys_clean, ← Poly.den_coeff, hden, Laurent.xpow, AddMonoidAlgebra.coeff_smul,
        AddMonoidAlgebra.coeff_single, Finsupp.smul_apply, Finsupp.single_apply] at hm
      split at hm
      · rename_i h
        rw [← Mono.expo_apply, ← h, Finsupp.single_apply, if_pos rfl]
        omega
      · simp at hm)
    show (Poly.substitute (Poly.clean p) 0 (Poly.neg Poly.beta)).map PolyVal.mk = _
    rw [hr1, Option.map_some]
    congr 1
    apply PolyVal.den_injective
    rw [PolyVal.den_mk, hr2, Poly.den_clean, hden, PolyVal.den_mul, PolyVal.den_intCast, PolyVal.den_pow, PolyVal.den_neg,
      PolyVal.den_mk, Poly.den_neg, den_beta, ← zsmul_eq_mul]
    by_cases hc : c = 0
    · subst hc; simp [Laurent.subst]
    · have h1 : (c • Laurent.xpow 0 (k : ℤ)).coeff = Finsupp.single (Finsupp.single 0 (k : ℤ)) c := by
        rw [Laurent.xpow, AddMonoidAlgebra.coeff_smul, AddMonoidAlgebra.coeff_single, Finsupp.smul_single]
        simp
      rw [Laurent.subst, h1, Finsupp.sum_single_index (by simp), Laurent.substMono]
      congr 1
      simp [← AddMonoidAlgebra.one_def]

theorem negateBeta_spec {n : Nat} {f : SymPoly} (hf : IsSym n f) (H : PolyVal → PolyVal) (h0 : H 0 = 0)
    (h : ∀ k ∈ f.dict.keys, (f.get k).substitute 0 (Poly.neg Poly.beta) = some (H (f.get k))) :
    ∃ g, negateBeta f = some g ∧ IsSym n g ∧ Vec.NoZero g ∧ ∀ k, g.get k = H (f.get k) := by
  have key : ∀ (l : List (List Nat × PolyVal)) (d : Dict (List Nat) PolyVal), (l.map Prod.fst).Nodup →
      (∀ t ∈ l, t.2.substitute 0 (Poly.neg Poly.beta) = some (H t.2)) →
      ∃ e, l.foldlM (fun (d : Dict (List Nat) PolyVal) (kv : List Nat × PolyVal) =>
          (kv.2.substitute 0 (Poly.neg Poly.beta)).map (fun v => d.set kv.1 v)) d = some e ∧
        (∀ k ∈ e.keys, k ∈ d.keys ∨ k ∈ l.map Prod.fst) ∧
        (∀ k, e.get? k = match Dict.lookup k l with
          | some v => some (H v)
          | none => d.get? k) := by
    intro l
    induction l with
    | nil => intro d _ _; exact ⟨d, rfl, fun k hk => Or.inl hk, fun k => rfl⟩
    | cons t l ih =>
      intro d hnd hl
      rw [List.map_cons, List.nodup_cons] at hnd
      obtain ⟨e, e1, e2, e3⟩ := ih (d.set t.1 (H t.2)) hnd.2 (fun t ht => hl t (by simp [ht]))
      refine ⟨e, ?_, ?_, ?_⟩
      · rw [List.foldlM_cons, hl t (by simp)]
        exact e1
      · intro k hk
        rcases e2 k hk with h | h
        · rcases keys_set h with rfl | h
          · right; simp
          · exact Or.inl h
        · right; rw [List.map_cons]; exact List.mem_cons_of_mem _ h
      · intro k
        rw [e3]
        obtain ⟨k', v⟩ := t
        rw [Dict.lookup]
        by_cases hk : k' = k
        · subst hk
          rw [Dict.lookup_eq_none.2 hnd.1, if_pos rfl]
          simp [Dict.get?_set]
        · rw [if_neg hk]
          simp [Dict.get?_set, hk]
  obtain ⟨e, e1, e2, e3⟩ := key f.dict.items Dict.empty f.dict.nodup (fun t ht => by
    have h1 : f.get t.1 = t.2 := Dict.getD_of_mem ht
    rw [← h1]
    exact h t.1 (Dict.mem_keys_of_items ht))
  refine ⟨Vec.mk' e f.multiplier, by rw [negateBeta, e1]; rfl, ?_, Vec.noZero_mk' _ _, fun k => ?_⟩
  · refine ⟨hf.mult, fun k hk => ?_⟩
    rcases e2 k (keys_mk' hk) with h | h
    · simp [Dict.keys, Dict.empty] at h
    · exact hf.keys k h
  · rw [Vec.get_mk', Dict.getD, e3]
    show _ = H ((Dict.lookup k f.dict.items).getD 0)
    cases Dict.lookup k f.dict.items with
    | none => simp [h0]
    | some v => rfl

theorem family_mnGrothendieck (n : Nat) :
    IsFamily n true (-PolyVal.mk Poly.beta) (fun mu => mnStableGrothendieck n mu []) := by
  intro mu hm
  obtain ⟨f, h1, h2, h3⟩ := family_grothendieck n mu hm
  obtain ⟨g, g1, g2, _, g4⟩ := negateBeta_spec h2
    (fun a => (a.substitute 0 (Poly.neg Poly.beta)).getD 0) (by decide +kernel) (fun k hk => by
      rw [h3, substitute_beta]; rfl)
  refine ⟨g, ?_, g2, fun k => ?_⟩
  · simp only at h1 ⊢
    rw [mnStableGrothendieck, h1]; exact g1
  · rw [g4, h3, substitute_beta]; rfl

end Verif.Symm
