import Verif.Model.Expansion
import Verif.Lemmas.SymTriang

/-! The recursion of `_expansion` for a unitriangular family. -/

namespace Verif.PolyVal

open Verif.Symm

theorem mod_one (a : PolyVal) : a.mod 1 = some 0 := by
  induction a using Quotient.inductionOn with
  | h p =>
    show (Poly.mod (Poly.clean p) 1).map mk = some 0
    rw [Poly.mod, if_neg (by simp), Option.map_some]
    congr 1
    refine mk_eq.2 (Poly.den_eq_iff.2 (fun m => ?_))
    rw [Poly.coeff_mapVal_filter _ (fun v => v.fmod 1) (by simp)]
    rw [Int.fmod_one, ← Poly.den_coeff, Poly.den_zero]
    rfl

theorem floordiv_one (a : PolyVal) : a.floordiv 1 = some a := by
  induction a using Quotient.inductionOn with
  | h p =>
    show (Poly.floordiv (Poly.clean p) 1).map mk = some (mk p)
    rw [Poly.floordiv, if_neg (by simp), Option.map_some]
    congr 1
    refine mk_eq.2 (Poly.den_eq_iff.2 (fun m => ?_))
    rw [Poly.coeff_mapVal_filter _ (fun v => v.fdiv 1) (by simp)]
    rw [Poly.coeff_clean, Int.fdiv_one]

theorem isInteger_one : (1 : PolyVal).isInteger = true ∧ (1 : PolyVal).constantTerm = 1 := by
  constructor
  · decide +kernel
  · decide +kernel

/-- The top term of a polynomial in beta. -/
theorem top_term {a : PolyVal} (ha : a ≠ 0) (hb : BetaOnly a.den) : ∃ (d c : ℤ), a.totalDegree = some d ∧ c ≠ 0 ∧
    a.coefficient 0 d = (c : PolyVal) ∧ a.den.coeff (Finsupp.single 0 d) = c := by
  induction a using Quotient.inductionOn with
  | h p =>
    change BetaOnly p.den at hb
    have hne : Poly.totalDegree (Poly.clean p) ≠ none := by
      intro h
      have h1 := (Poly.totalDegree_none _).1 h
      apply ha
      refine mk_eq.2 (Poly.den_eq_iff.2 (fun m => ?_))
      have : Poly.coeff Poly.zero m = 0 := by rw [← Poly.den_coeff, Poly.den_zero]; rfl
      rw [this]
      by_contra hm
      rw [← ne_eq, ← Poly.mem_keys_clean, h1] at hm
      simp at hm
    obtain ⟨d, hd⟩ := Option.ne_none_iff_exists'.1 hne
    obtain ⟨⟨m, hm, hmd⟩, hle⟩ := Poly.totalDegree_some _ d hd
    rw [Poly.mem_keys_clean] at hm
    obtain ⟨k, hk⟩ := hb m.expo (by rw [Poly.den_coeff]; exact hm)
    have hkd : k = d := by
      rw [← hmd, Mono.degree_eq, hk, Finsupp.sum_single_index rfl]
    subst hkd
    refine ⟨k, p.coeff m, hd, hm, ?_, ?_⟩
    · refine mk_eq.2 (Poly.den_eq_iff.2 (fun m' => ?_))
      rw [Poly.coeff_coefficient, Poly.const, Poly.coeff_single']
      by_cases h1 : Mono.one = m'
      · subst h1
        rw [if_pos (by simp), if_pos rfl]
        congr 1
        apply Mono.expo_inj.1
        rw [hk]; simp
      · rw [if_neg h1]
        by_contra h0
        rw [ite_eq_right_iff, not_forall] at h0
        obtain ⟨h2, h3⟩ := h0
        rw [← Poly.den_coeff] at h3
        obtain ⟨l, hl⟩ := hb _ h3
        apply h1
        apply Mono.ext_get
        intro t
        rw [Mono.get_one]
        by_cases ht : t = 0
        · rw [ht, h2]
        · have := DFunLike.congr_fun hl t
          rw [Mono.expo_mul, Finsupp.add_apply, Mono.expo_apply, Mono.expo_var, Finsupp.single_apply,
            Finsupp.single_apply, if_neg (fun h => ht h.symm), if_neg (fun h => ht h.symm)] at this
          omega
    · show p.den.coeff _ = _
      rw [← hk, Poly.den_coeff]

end Verif.PolyVal

namespace Verif.Symm

open Verif.Part Partition Tableaux

attribute [-simp] List.getD_eq_getElem?_getD

theorem betaOnly_xpow (k : ℤ) : BetaOnly (Laurent.xpow 0 k) := by
  intro e he
  rw [Laurent.xpow, AddMonoidAlgebra.coeff_single, Finsupp.single_apply] at he
  split at he
  · rename_i h; exact ⟨k, h.symm⟩
  · exact absurd rfl he

theorem betaOnly_int (c : ℤ) : BetaOnly (c : Laurent) := by
  intro e he
  have h1 : (c : Laurent) = AddMonoidAlgebra.single 0 c := by
    rw [← zsmul_one, AddMonoidAlgebra.one_def, AddMonoidAlgebra.smul_single]; simp
  rw [h1, AddMonoidAlgebra.coeff_single, Finsupp.single_apply] at he
  split at he
  · rename_i h; exact ⟨0, by rw [← h]; simp⟩
  · exact absurd rfl he

theorem betaOnly_zero : BetaOnly 0 := fun _ he => absurd rfl he

theorem betaOnly_add {z w : Laurent} (hz : BetaOnly z) (hw : BetaOnly w) : BetaOnly (z + w) := by
  intro e he
  rw [AddMonoidAlgebra.coeff_add, Finsupp.add_apply] at he
  by_cases h : z.coeff e = 0
  · exact hw e (fun h' => he (by rw [h, h', add_zero]))
  · exact hz e h

theorem betaOnly_neg {z : Laurent} (hz : BetaOnly z) : BetaOnly (-z) := by
  intro e he
  rw [AddMonoidAlgebra.coeff_neg, Finsupp.neg_apply] at he
  exact hz e (fun h => he (by rw [h, neg_zero]))

theorem betaOnly_sub {z w : Laurent} (hz : BetaOnly z) (hw : BetaOnly w) : BetaOnly (z - w) := by
  rw [sub_eq_add_neg]; exact betaOnly_add hz (betaOnly_neg hw)

theorem betaOnly_mul {z w : Laurent} (hz : BetaOnly z) (hw : BetaOnly w) : BetaOnly (z * w) := by
  classical
  intro e he
  rw [AddMonoidAlgebra.coeff_mul] at he
  obtain ⟨a, ha, h1⟩ := Finset.exists_ne_zero_of_sum_ne_zero he
  obtain ⟨b, hb, h2⟩ := Finset.exists_ne_zero_of_sum_ne_zero h1
  obtain ⟨k, rfl⟩ := hz a (Finsupp.mem_support_iff.1 ha)
  obtain ⟨l, rfl⟩ := hw b (Finsupp.mem_support_iff.1 hb)
  beta_reduce at h2
  split at h2
  swap
  · exact absurd rfl h2
  rename_i hab
  rw [← hab]
  exact ⟨k + l, (Finsupp.single_add _ _ _).symm⟩

/-- Removing a term. -/
theorem coeff_sub_term (z : Laurent) (d c : ℤ) (h : z.coeff (Finsupp.single 0 d) = c) (e : ℤ →₀ ℤ) :
    (z - c * Laurent.xpow 0 d).coeff e = if e = Finsupp.single 0 d then 0 else z.coeff e := by
  rw [← zsmul_eq_mul, Laurent.xpow, AddMonoidAlgebra.coeff_sub, Finsupp.sub_apply, AddMonoidAlgebra.coeff_smul,
    Finsupp.smul_apply, AddMonoidAlgebra.coeff_single, Finsupp.single_apply]
  by_cases he : e = Finsupp.single 0 d
  · subst he; rw [if_pos rfl, if_pos rfl, h]; simp
  · rw [if_neg he, if_neg (fun h => he h.symm)]; simp

theorem card_sub_term (z : Laurent) (d c : ℤ) (hc : c ≠ 0) (h : z.coeff (Finsupp.single 0 d) = c) :
    (z - c * Laurent.xpow 0 d).coeff.support.card < z.coeff.support.card := by
  classical
  apply Finset.card_lt_card
  rw [Finset.ssubset_iff_of_subset]
  · refine ⟨Finsupp.single 0 d, Finsupp.mem_support_iff.2 (by rw [h]; exact hc), ?_⟩
    rw [Finsupp.mem_support_iff, coeff_sub_term z d c h, if_pos rfl]; simp
  · intro e he
    rw [Finsupp.mem_support_iff, coeff_sub_term z d c h] at he
    rw [Finsupp.mem_support_iff]
    split at he
    · exact absurd rfl he
    · exact he

/-! ### recombination -/

theorem vec_eq_of_get_eq {K : Type} [DecidableEq K] {f g : Vec K PolyVal} (hf : Vec.NoZero f)
    (h : ∀ k, f.get k = g.get k) : Vec.eq f g = true := by
  rw [Vec.eq, beq_iff_eq, Vec.len_zero_iff (Vec.noZero_sub hf)]
  intro k
  rw [Vec.get_sub, h k, sub_self]

theorem mapM_some {α β : Type} (l : List α) (F : α → Option β) (H : α → β) (h : ∀ x ∈ l, F x = some (H x)) :
    l.mapM F = some (l.map H) := by
  induction l with
  | nil => rfl
  | cons a l ih =>
    rw [List.mapM_cons, h a (by simp), ih (fun x hx => h x (by simp [hx]))]
    rfl

theorem sumVecs_spec (l : List SymPoly) (hl : l ≠ []) (hz : ∀ v ∈ l, Vec.NoZero v) :
    ∃ u, sumVecs l = some u ∧ Vec.NoZero u ∧ ∀ k, u.get k = (l.map (fun v => v.get k)).sum := by
  have key : ∀ (l : List SymPoly) (u : SymPoly), Vec.NoZero u → ∃ w, l.foldl (fun acc v => match acc with
      | none => some v
      | some u => some (Vec.add u v)) (some u) = some w ∧ Vec.NoZero w ∧
      ∀ k, w.get k = u.get k + (l.map (fun v => v.get k)).sum := by
    intro l
    induction l with
    | nil => intro u hu; exact ⟨u, rfl, hu, by simp⟩
    | cons a l ih =>
      intro u hu
      obtain ⟨w, h1, h2, h3⟩ := ih (Vec.add u a) (Vec.noZero_add hu)
      refine ⟨w, h1, h2, fun k => ?_⟩
      rw [h3, Vec.get_add, List.map_cons, List.sum_cons, add_assoc]
  cases l with
  | nil => exact absurd rfl hl
  | cons a l =>
    obtain ⟨w, h1, h2, h3⟩ := key l a (hz a (by simp))
    exact ⟨w, h1, h2, fun k => by rw [h3]; simp⟩

/-- The vector computed by `function(n, mu)`, as an element of the free module; 0 if it raises. -/
noncomputable def fden (function : List Nat → Option SymPoly) (mu : List Nat) : List Nat →₀ PolyVal :=
  ((function mu).map Vec.den).getD 0

/-- The combination of the `function(n, mu)` with coefficients `u`. -/
noncomputable def combine (function : List Nat → Option SymPoly) (u : List Nat →₀ PolyVal) : List Nat →₀ PolyVal :=
  u.sum (fun mu c => c • fden function mu)

theorem combine_add (function : List Nat → Option SymPoly) (u v : List Nat →₀ PolyVal) :
    combine function (u + v) = combine function u + combine function v := by
  unfold combine
  exact Finsupp.sum_add_index' (fun _ => by simp) (fun _ _ _ => by rw [add_smul])

theorem combine_single (function : List Nat → Option SymPoly) (mu : List Nat) (c : PolyVal) :
    combine function (Finsupp.single mu c) = c • fden function mu := by
  rw [combine, Finsupp.sum_single_index (by simp)]

theorem combine_ofTerms (function : List Nat → Option SymPoly) (l : List (List Nat × PolyVal)) :
    combine function (FreeMod.ofTerms l) = (l.map (fun t => t.2 • fden function t.1)).sum := by
  induction l with
  | nil => simp [FreeMod.ofTerms, combine]
  | cons a l ih =>
    have : FreeMod.ofTerms (a :: l) = Finsupp.single a.1 a.2 + FreeMod.ofTerms l := by simp [FreeMod.ofTerms]
    rw [this, combine_add, combine_single, ih, List.map_cons, List.sum_cons]

theorem recombines_spec (function : List Nat → Option SymPoly) {f : SymPoly} {ans : Vec (List Nat) PolyVal}
    (hf : Vec.NoZero f) (hf0 : f.len ≠ 0) (hfun : ∀ mu ∈ ans.dict.keys, ∃ g, function mu = some g)
    (h : f.den = combine function ans.den) : recombines function f ans = some true := by
  have hm : ans.dict.items.mapM (fun xy => (function xy.1).map (fun g => Vec.smul g xy.2)) =
      some (ans.dict.items.map (fun xy => Vec.smul ((function xy.1).getD f) xy.2)) := by
    apply mapM_some
    intro x hx
    obtain ⟨g, hg⟩ := hfun x.1 (Dict.mem_keys_of_items hx)
    rw [hg]; rfl
  rw [recombines, hm]
  have hne : ans.dict.items.map (fun xy => Vec.smul ((function xy.1).getD f) xy.2) ≠ [] := by
    intro hc
    rw [List.map_eq_nil_iff] at hc
    apply hf0
    rw [Vec.len_zero_iff hf]
    intro k
    rw [← Vec.den_apply, h, Vec.den, hc]
    simp [FreeMod.ofTerms, combine]
  obtain ⟨u, h1, h2, h3⟩ := sumVecs_spec _ hne (fun v hv => by
    obtain ⟨x, _, rfl⟩ := List.mem_map.1 hv
    exact Vec.noZero_mk' _ _)
  simp only [h1]
  congr 1
  apply vec_eq_of_get_eq h2
  intro k
  rw [h3, List.map_map, ← Vec.den_apply, h, Vec.den, combine_ofTerms]
  have : ∀ l : List (List Nat × PolyVal), (∀ t ∈ l, ∃ g, function t.1 = some g) →
      (l.map ((fun v => v.get k) ∘ fun xy => Vec.smul ((function xy.1).getD f) xy.2)).sum =
      ((l.map (fun t => t.2 • fden function t.1)).sum) k := by
    intro l
    induction l with
    | nil => intro _; simp
    | cons a l ih =>
      intro hl
      obtain ⟨g, hg⟩ := hl a (by simp)
      rw [List.map_cons, List.map_cons, List.sum_cons, List.sum_cons, ih (fun t ht => hl t (by simp [ht])),
        Finsupp.add_apply, Finsupp.smul_apply, Function.comp_apply, Vec.get_smul, fden, hg, smul_eq_mul, mul_comm]
      rw [Option.map_some, Option.getD_some, Option.getD_some, Vec.den_apply]
  exact this _ (fun t ht => hfun t.1 (Dict.mem_keys_of_items ht))

/-! ### the recursion -/

/-- A family of symmetric polynomials with leading term `mu` and coefficient 1, for the order `before`. -/
structure Triangular (n : Nat) (function : List Nat → Option SymPoly) (before : List Nat → List Nat → Prop) : Prop where
  trans : ∀ {a b c}, before a b → before b c → before a c
  irrefl : ∀ a, ¬ before a a
  family : ∀ mu, IsPartition mu → mu.length ≤ n → ∃ g, function mu = some g ∧ IsSym n g ∧ g.get mu = 1 ∧
    (∀ k, BetaOnly (g.get k).den) ∧ ∀ k, g.get k ≠ 0 → k ≠ mu → before mu k

/-- `getTerm` finds the first term. -/
def FindsFirst (n : Nat) (getTerm : SymPoly → Option (List Nat)) (before : List Nat → List Nat → Prop) : Prop :=
  ∀ f, IsSym n f → Vec.NoZero f → f.len ≠ 0 → ∃ t, getTerm f = some t ∧ f.get t ≠ 0 ∧
    ∀ k, f.get k ≠ 0 → k ≠ t → before t k

theorem isSym_sub {n : Nat} {f g : SymPoly} (hf : IsSym n f) (hg : IsSym n g) : IsSym n (Vec.sub f g) := by
  rw [Vec.sub]
  split
  · exact hf
  · refine ⟨by show (f.multiplier <|> g.multiplier) = _; rw [hf.mult]; rfl, fun k hk => ?_⟩
    have := keys_fromKeys (keys_mk' hk)
    rw [Vec.unionKeys, List.mem_dedup, List.mem_append] at this
    rcases this with h | h
    · exact hf.keys k h
    · exact hg.keys k h

/-- The result of an expansion of `f`. -/
structure IsExpansion (function : List Nat → Option SymPoly) (S : Finset (List Nat)) (f : SymPoly)
    (ans : Vec (List Nat) PolyVal) : Prop where
  eq : f.den = combine function ans.den
  keys : ∀ k ∈ ans.dict.keys, k ∈ S
  beta : ∀ k, BetaOnly (ans.get k).den
  noZero : Vec.NoZero ans

theorem expansion_exists {n : Nat} {function : List Nat → Option SymPoly} {getTerm : SymPoly → Option (List Nat)}
    {before : List Nat → List Nat → Prop} (ht : Triangular n function before) (hg : FindsFirst n getTerm before)
    (S : Finset (List Nat)) (hS : ∀ mu ∈ S, IsPartition mu ∧ mu.length ≤ n)
    (hcl : ∀ mu ∈ S, ∀ k, fden function mu k ≠ 0 → k ∈ S) (f : SymPoly) (hf : IsSym n f) (hz : Vec.NoZero f)
    (hb : ∀ k, BetaOnly (f.get k).den) (hsub : ∀ k, f.get k ≠ 0 → k ∈ S) :
    ∃ N ans, (∀ fuel ≥ N, expansion function getTerm fuel f = some ans) ∧ IsExpansion function S f ans := by
  classical
  induction hm : S.card using Nat.strong_induction_on generalizing S f with
  | _ m ihS =>
  subst hm
  by_cases hlen : f.len = 0
  · refine ⟨1, Vec.mk' Dict.empty none, fun fuel hfuel => ?_, ?_, ?_, ?_, ?_⟩
    · obtain ⟨fuel, rfl⟩ : ∃ k, fuel = k + 1 := ⟨fuel - 1, by omega⟩
      rw [expansion, if_pos hlen]
    · ext k
      rw [Vec.den_apply, Vec.get_of_len_zero hlen]
      simp [Vec.den, Vec.mk', Dict.filter, Dict.empty, FreeMod.ofTerms, combine]
    · intro k hk
      simp [Vec.mk', Dict.filter, Dict.empty, Dict.keys] at hk
    · intro k
      rw [Vec.get_mk', Dict.getD_empty, PolyVal.den_zero]
      exact betaOnly_zero
    · exact Vec.noZero_mk' _ _
  obtain ⟨t, ht1, ht2, ht3⟩ := hg f hf hz hlen
  induction hk : (f.get t).den.coeff.support.card using Nat.strong_induction_on generalizing f with
  | _ k ihk =>
  subst hk
  have htS := hsub t ht2
  obtain ⟨hp1, hp2⟩ := hS t htS
  obtain ⟨g, hg1, hg2, hg3, hg4, hg5⟩ := ht.family t hp1 hp2
  obtain ⟨d, c, hd1, hc, hd2, hd3⟩ := PolyVal.top_term ht2 (hb t)
  obtain ⟨b, hb1, hb2⟩ := pow_beta d
  have hfd : fden function t = g.den := by rw [fden, hg1]; rfl
  obtain ⟨q, hq⟩ : ∃ q : PolyVal, (c : PolyVal) * PolyVal.mk b = q := ⟨_, rfl⟩
  have hqd : q.den = c * Laurent.xpow 0 d := by
    rw [← hq, PolyVal.den_mul, PolyVal.den_mk, hb2, PolyVal.den_intCast]
  have hqb : BetaOnly q.den := by rw [hqd]; exact betaOnly_mul (betaOnly_int c) (betaOnly_xpow d)
  obtain ⟨f', hf'⟩ : ∃ f', Vec.sub f (Vec.smul g q) = f' := ⟨_, rfl⟩
  have hget : ∀ k, f'.get k = f.get k - g.get k * q := by
    intro k; rw [← hf', Vec.get_sub, Vec.get_smul]
  have hsym' : IsSym n f' := by rw [← hf']; exact isSym_sub hf (isSym_smul hg2 q)
  have hz' : Vec.NoZero f' := by rw [← hf']; exact Vec.noZero_sub hz
  have hb' : ∀ k, BetaOnly (f'.get k).den := by
    intro k
    rw [hget, PolyVal.den_sub, PolyVal.den_mul]
    exact betaOnly_sub (hb k) (betaOnly_mul (hg4 k) hqb)
  have hgS : ∀ k, g.get k ≠ 0 → k ∈ S := by
    intro k hk; apply hcl t htS; rw [hfd, Vec.den_apply]; exact hk
  have hsub' : ∀ k, f'.get k ≠ 0 → k ∈ S := by
    intro k hk
    by_cases h1 : f.get k = 0
    · apply hgS
      intro h2
      exact hk (by rw [hget, h1, h2]; simp)
    · exact hsub k h1
  have hafter : ∀ k, f'.get k ≠ 0 → k ≠ t → before t k := by
    intro k hk hkt
    by_cases h1 : f.get k = 0
    · apply hg5 k _ hkt
      intro h2
      exact hk (by rw [hget, h1, h2]; simp)
    · exact ht3 k h1 hkt
  have ht' : (f'.get t).den = (f.get t).den - c * Laurent.xpow 0 d := by
    rw [hget, hg3, one_mul, PolyVal.den_sub, hqd]
  -- the recursive call
  have hrec : ∃ N ans, (∀ fuel ≥ N, expansion function getTerm fuel f' = some ans) ∧
      IsExpansion function S f' ans := by
    by_cases hft : f'.get t = 0
    · have hS' : ∀ k, f'.get k ≠ 0 → k ∈ S.filter (fun k => before t k) := by
        intro k hk
        rw [Finset.mem_filter]
        exact ⟨hsub' k hk, hafter k hk (fun h => hk (by rw [h, hft]))⟩
      have hcard : (S.filter (fun k => before t k)).card < S.card := by
        apply Finset.card_lt_card
        rw [Finset.ssubset_iff_of_subset (Finset.filter_subset _ _)]
        exact ⟨t, htS, fun h => ht.irrefl t (Finset.mem_filter.1 h).2⟩
      obtain ⟨N, ans, h1, h2⟩ := ihS _ hcard (S.filter (fun k => before t k))
        (fun mu hmu => hS mu (Finset.mem_filter.1 hmu).1)
        (fun mu hmu k hk => by
          rw [Finset.mem_filter] at hmu ⊢
          refine ⟨hcl mu hmu.1 k hk, ?_⟩
          by_cases hkm : k = mu
          · rw [hkm]; exact hmu.2
          · obtain ⟨g', e1, _, _, _, e5⟩ := ht.family mu (hS mu hmu.1).1 (hS mu hmu.1).2
            refine ht.trans hmu.2 (e5 k ?_ hkm)
            rw [fden, e1, Option.map_some, Option.getD_some, Vec.den_apply] at hk
            exact hk)
        f' hsym' hz' hb' hS' rfl
      exact ⟨N, ans, h1, h2.eq, fun k hk => (Finset.mem_filter.1 (h2.keys k hk)).1, h2.beta, h2.noZero⟩
    · have hlen' : f'.len ≠ 0 := by
        intro h
        exact hft ((Vec.len_zero_iff hz').1 h t)
      have hfirst : getTerm f' = some t := by
        obtain ⟨t', e1, e2, e3⟩ := hg f' hsym' hz' hlen'
        by_cases htt : t' = t
        · rw [e1, htt]
        · exact absurd (ht.trans (hafter t' e2 htt) (e3 t hft (fun h => htt h.symm))) (ht.irrefl t)
      refine ihk _ ?_ f' hsym' hz' hb' hsub' hlen' hfirst hft hafter rfl
      rw [ht']
      exact card_sub_term _ d c hc hd3
  obtain ⟨N, ans, h1, h2⟩ := hrec
  obtain ⟨res, hres⟩ : ∃ r, Vec.add ans (Vec.mk' (Dict.empty.set t q) none) = r := ⟨_, rfl⟩
  have hrget : ∀ k, res.get k = ans.get k + if t = k then q else 0 := by
    intro k
    rw [← hres, Vec.get_add, Vec.get_mk', Dict.getD_set, Dict.getD_empty]
  have hrden : res.den = ans.den + Finsupp.single t q := by
    ext k
    rw [Vec.den_apply, hrget, Finsupp.add_apply, Vec.den_apply, Finsupp.single_apply]
  have hrz : Vec.NoZero res := by rw [← hres]; exact Vec.noZero_add h2.noZero
  have hexp : IsExpansion function S f res := by
    refine ⟨?_, ?_, ?_, hrz⟩
    · rw [hrden, combine_add, ← h2.eq, combine_single, hfd]
      ext k
      rw [Finsupp.add_apply, Finsupp.smul_apply, Vec.den_apply, Vec.den_apply, Vec.den_apply, hget, smul_eq_mul]
      ring
    · intro k hk
      rw [Vec.mem_keys_iff hrz, hrget] at hk
      by_cases hkt : t = k
      · rw [← hkt]; exact htS
      · rw [if_neg hkt, add_zero, ← Vec.mem_keys_iff h2.noZero] at hk
        exact h2.keys k hk
    · intro k
      rw [hrget, PolyVal.den_add]
      refine betaOnly_add (h2.beta k) ?_
      split
      · exact hqb
      · rw [PolyVal.den_zero]; exact betaOnly_zero
  have hrc : recombines function f res = some true := by
    refine recombines_spec function hz hlen (fun mu hmu => ?_) hexp.eq
    obtain ⟨g', e1, _⟩ := ht.family mu (hS mu (hexp.keys mu hmu)).1 (hS mu (hexp.keys mu hmu)).2
    exact ⟨g', e1⟩
  refine ⟨N + 1, res, fun fuel hfuel => ?_, hexp⟩
  obtain ⟨fuel, rfl⟩ : ∃ k, fuel = k + 1 := ⟨fuel - 1, by omega⟩
  rw [expansion, if_neg hlen, ht1, Option.bind_eq_bind, Option.bind_some, hg1, Option.bind_eq_bind, Option.bind_some,
    hd1, Option.bind_eq_bind, Option.bind_some, hg3, PolyVal.isInteger_one.1, PolyVal.isInteger_one.2]
  simp only [if_true, PolyVal.mod_one, PolyVal.floordiv_one, hb1, hd2, Option.bind_eq_bind, Option.bind_some, hq, hf',
    h1 fuel (by omega), hres, hrc]

theorem exists_first (s : Finset (List Nat)) (before : List Nat → List Nat → Prop)
    (htr : ∀ a b c, before a b → before b c → before a c) (hir : ∀ a, ¬ before a a) (hs : s.Nonempty) :
    ∃ m ∈ s, ∀ k ∈ s, ¬ before k m := by
  classical
  induction s using Finset.induction_on with
  | empty => simp at hs
  | insert a s ha ih =>
    by_cases hs' : s.Nonempty
    · obtain ⟨m, hm, hmin⟩ := ih hs'
      by_cases hb : before a m
      · refine ⟨a, by simp, fun k hk hka => ?_⟩
        rw [Finset.mem_insert] at hk
        rcases hk with rfl | hk
        · exact hir _ hka
        · exact hmin k hk (htr _ _ _ hka hb)
      · refine ⟨m, by simp [hm], fun k hk hkm => ?_⟩
        rw [Finset.mem_insert] at hk
        rcases hk with rfl | hk
        · exact hb hkm
        · exact hmin k hk hkm
    · rw [Finset.not_nonempty_iff_eq_empty] at hs'
      subst hs'
      exact ⟨a, by simp, fun k hk => by simp at hk; subst hk; exact hir _⟩

/-- Uniqueness of coefficients. -/
theorem combine_injective {n : Nat} {function : List Nat → Option SymPoly} {before : List Nat → List Nat → Prop}
    (ht : Triangular n function before) {u v : List Nat →₀ PolyVal}
    (hu : ∀ k, u k ≠ 0 → IsPartition k ∧ k.length ≤ n) (hv : ∀ k, v k ≠ 0 → IsPartition k ∧ k.length ≤ n)
    (h : combine function u = combine function v) : u = v := by
  classical
  have hw : ∀ k, (u - v) k ≠ 0 → IsPartition k ∧ k.length ≤ n := by
    intro k hk
    rw [Finsupp.sub_apply] at hk
    by_cases h1 : u k = 0
    · exact hv k (fun h2 => hk (by rw [h1, h2, sub_zero]))
    · exact hu k h1
  have h0 : combine function (u - v) = 0 := by
    have := combine_add function (u - v) v
    rw [sub_add_cancel, h] at this
    exact (right_eq_add.1 this)
  by_contra hne
  have hs : (u - v).support.Nonempty := Finsupp.support_nonempty_iff.2 (sub_ne_zero.2 hne)
  obtain ⟨m, hm, hmin⟩ := exists_first (u - v).support before (fun a b c => ht.trans) ht.irrefl hs
  have := DFunLike.congr_fun h0 m
  rw [combine, Finsupp.sum, Finsupp.finsetSum_apply, Finset.sum_eq_single m, Finsupp.smul_apply] at this
  · obtain ⟨g, e1, _, e3, _, _⟩ := ht.family m (hw m (Finsupp.mem_support_iff.1 hm)).1
      (hw m (Finsupp.mem_support_iff.1 hm)).2
    rw [fden, e1, Option.map_some, Option.getD_some, Vec.den_apply, e3, smul_eq_mul, mul_one] at this
    exact (Finsupp.mem_support_iff.1 hm) this
  · intro k hk hkm
    obtain ⟨g, e1, _, _, _, e5⟩ := ht.family k (hw k (Finsupp.mem_support_iff.1 hk)).1
      (hw k (Finsupp.mem_support_iff.1 hk)).2
    rw [Finsupp.smul_apply, fden, e1, Option.map_some, Option.getD_some, Vec.den_apply]
    by_cases h1 : g.get m = 0
    · rw [h1, smul_zero]
    · exact absurd (e5 m h1 (fun h => hkm h.symm)) (hmin k hk)
  · intro hc; exact absurd hm hc

end Verif.Symm
