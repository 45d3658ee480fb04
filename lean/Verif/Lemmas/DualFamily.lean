import Verif.Lemmas.RppWeight
import Verif.Lemmas.ExpansionBases
import Verif.Model.Dual
import Verif.Props.Rpp
import Verif.Props.Tableau

/-! Dual stable Grothendieck polynomials and expansions in them. -/

attribute [-simp] List.getD_eq_getElem?_getD

namespace Verif.Symm

open Verif.Part Partition Tableaux Tab

/-! ### `(-BETA)**k * _vectorize(..., -BETA**-1)` -/

theorem pow_neg_beta (k : Int) : ∃ r, Poly.pow (Poly.neg Poly.beta) k = some r ∧
    (0 ≤ k → r.den = (-Laurent.xpow 0 1) ^ k.toNat) := by
  rw [Poly.pow]
  by_cases h0 : k = 0
  · subst h0
    refine ⟨_, if_pos rfl, fun _ => ?_⟩
    simp [AddMonoidAlgebra.one_def]
  · rw [if_neg h0]
    by_cases hneg : k < 0
    · rw [if_pos hneg]
      have hi : (Poly.neg Poly.beta).items = [(Mono.var 0 1, -1)] := by decide
      rw [hi]
      exact ⟨_, if_neg (by decide), fun h => by omega⟩
    · rw [if_neg hneg]
      refine ⟨_, rfl, fun _ => ?_⟩
      rw [Poly.den_powNat, Poly.den_neg, den_beta]

theorem xpow_inv : Laurent.xpow 0 (-1) * Laurent.xpow 0 1 = 1 := by
  rw [Laurent.xpow, Laurent.xpow, AddMonoidAlgebra.single_mul_single, ← Finsupp.single_add, AddMonoidAlgebra.one_def]
  simp

theorem neg_inv_pow {s m : Nat} (h : s ≤ m) :
    (-Laurent.xpow 0 (-1)) ^ s * (-Laurent.xpow 0 1) ^ m = (-Laurent.xpow 0 1) ^ (m - s) := by
  obtain ⟨t, rfl⟩ : ∃ t, m = s + t := ⟨m - s, by omega⟩
  rw [pow_add, ← mul_assoc, ← mul_pow, neg_mul_neg, xpow_inv, one_pow, one_mul, Nat.add_sub_cancel_left]

theorem neg_inv_beta_ne_zero {b : Poly} (hb : b.den = Laurent.xpow 0 (-1)) : PolyVal.mk (Poly.neg b) ≠ 0 := by
  intro h
  have h1 := congrArg PolyVal.den h
  rw [PolyVal.den_mk, Poly.den_neg, hb, PolyVal.den_zero] at h1
  have h2 := xpow_inv
  rw [neg_eq_zero.1 h1, zero_mul] at h2
  exact zero_ne_one h2

theorem dualVectorize_spec {τ : Type} (v : Int → Poly) {S : Finset τ} {n : Nat} {w : τ → Nat → Nat}
    (hS : SwapInvariant S n w) {d : Dict (List Nat) Int} (hkeys : ∀ q ∈ d.keys, q.length ≤ n)
    (hd : ∀ k, IsPartition k ∧ k.length ≤ n → d.getD k 0 = wCount S n w (fun i => k.getD i 0))
    (hd0 : ∀ k, ¬ (IsPartition k ∧ k.length ≤ n) → d.getD k 0 = 0) {mu nu : List Nat}
    (hb : ∀ T ∈ S, ∑ i ∈ Finset.range n, w T i + nu.sum ≤ mu.sum) :
    ∃ f, dualVectorize n mu nu d = some f ∧ IsSym n f ∧ Vec.NoZero f ∧
      (∀ k, f.get k = (d.getD k 0 : PolyVal) * (-PolyVal.mk Poly.beta) ^ (mu.sum - nu.sum - k.sum)) ∧
      (polynomial v n f).den = ∑ T ∈ S, (-Laurent.xpow 0 1) ^ (mu.sum - nu.sum - ∑ i ∈ Finset.range n, w T i) *
        xm (xden v) 1 (wtL n w T) := by
  obtain ⟨b, hb1, hb2⟩ := pow_beta (-1)
  obtain ⟨c, hc1, hc2⟩ := pow_neg_beta ((mu.sum : Int) - nu.sum)
  obtain ⟨f, h1, h2, h3, h4, h5⟩ := vectorize_weights v hS hkeys hd hd0 (some (PolyVal.mk (Poly.neg b))) none
  have hsign : ∀ s : Nat, (signFactor (some (PolyVal.mk (Poly.neg b))) s).den = (-Laurent.xpow 0 (-1)) ^ s := by
    intro s
    rw [signFactor, if_neg (neg_inv_beta_ne_zero hb2), PolyVal.den_pow, PolyVal.den_mk, Poly.den_neg, hb2]
  have hwithin : ∀ s : Nat, within none s := fun s b hb => by simp at hb
  have hmul : ∀ s : Nat, s + nu.sum ≤ mu.sum →
      (signFactor (some (PolyVal.mk (Poly.neg b))) s).den * c.den = (-Laurent.xpow 0 1) ^ (mu.sum - nu.sum - s) := by
    intro s hs
    rw [hsign, hc2 (by omega), neg_inv_pow (by omega)]
    congr 1
    omega
  refine ⟨Vec.smul f (PolyVal.mk c), by rw [dualVectorize, hb1]; simp only; rw [h1]; simp only; rw [hc1],
    isSym_smul h2 _, Vec.noZero_mk' _ _, fun k => ?_, ?_⟩
  · rw [Vec.get_smul, h4, if_pos (hwithin _)]
    by_cases h0 : d.getD k 0 = 0
    · rw [h0]; simp
    · have hk : IsPartition k ∧ k.length ≤ n := by
        by_contra hc; exact h0 (hd0 k hc)
      have hle : k.sum + nu.sum ≤ mu.sum := by
        rw [hd k hk, wCount] at h0
        have h6 : ((S.filter (fun T => ∀ i < n, w T i = k.getD i 0)).card : Nat) ≠ 0 := by exact_mod_cast h0
        obtain ⟨T, hT⟩ := Finset.card_ne_zero.1 h6
        rw [Finset.mem_filter] at hT
        have := hb T hT.1
        rw [Finset.sum_congr rfl (fun i hi => hT.2 i (Finset.mem_range.1 hi)), sum_range_length hk.2] at this
        exact this
      rw [mul_assoc]
      congr 1
      apply PolyVal.den_injective
      rw [PolyVal.den_mul, PolyVal.den_mk, hmul _ hle, PolyVal.den_pow, PolyVal.den_neg, PolyVal.den_mk, den_beta]
  · rw [polynomial_smul v h2, PolyVal.den_mul, h5, Finset.sum_mul, Finset.sum_filter]
    refine Finset.sum_congr rfl (fun T hT => ?_)
    rw [if_pos (hwithin _), PolyVal.den_mk, mul_right_comm, hmul _ (by rw [sum_wtL]; exact hb T hT), sum_wtL]

/-! ### the expansion, starting from the highest degree -/

/-- Higher degree first, then lexicographically larger first. -/
def beforeHigh (a b : List Nat) : Prop := b.sum < a.sum ∨ (a.sum = b.sum ∧ b < a)

theorem beforeHigh_trans {a b c : List Nat} (h1 : beforeHigh a b) (h2 : beforeHigh b c) : beforeHigh a c := by
  rcases h1 with h1 | ⟨h1, h1'⟩ <;> rcases h2 with h2 | ⟨h2, h2'⟩
  · left; omega
  · left; omega
  · left; omega
  · right; exact ⟨by omega, List.lt_trans h2' h1'⟩

theorem beforeHigh_irrefl (a : List Nat) : ¬ beforeHigh a a := by
  rintro (h | ⟨_, h⟩)
  · omega
  · exact List.lt_irrefl a h

theorem foldl_natmax_spec (l : List Nat) (a : Nat) :
    (l.foldl max a = a ∨ l.foldl max a ∈ l) ∧ a ≤ l.foldl max a ∧ ∀ k ∈ l, k ≤ l.foldl max a := by
  induction l generalizing a with
  | nil => simp
  | cons b l ih =>
    obtain ⟨h1, h2, h3⟩ := ih (max a b)
    rw [List.foldl_cons]
    generalize l.foldl max (max a b) = M at *
    refine ⟨?_, by omega, ?_⟩
    · rcases h1 with h1 | h1
      · by_cases hab : b ≤ a
        · left; omega
        · right; rw [List.mem_cons]; left; omega
      · right; simp [h1]
    · intro k hk
      rcases List.mem_cons.1 hk with rfl | hk
      · omega
      · exact h3 k hk

/-- The `m` of `highest_degree_terms`. -/
def highestDegree (f : SymPoly) : Nat :=
  match f.dict.keys.map List.sum with
  | [] => 0
  | d :: ds => ds.foldl max d

theorem findsFirst_highest (n : Nat) : FindsFirst n (termFromHighest n) beforeHigh := by
  intro f hf hz hlen
  obtain ⟨m, hm⟩ : ∃ m, highestDegree f = m := ⟨_, rfl⟩
  obtain ⟨g, hg⟩ : ∃ g, highestDegreeTerms n f = g := ⟨_, rfl⟩
  have hget : ∀ k, g.get k = if k.sum = m then f.get k else 0 := by
    intro k
    rw [← hg, ← hm, highestDegreeTerms, mkSym, Vec.get_mk', getD_filter]
    simp only [decide_eq_true_eq]
    rfl
  have hgz : Vec.NoZero g := by rw [← hg]; exact Vec.noZero_mk' _ _
  have hmem : ∀ k, f.get k ≠ 0 ↔ k ∈ f.dict.keys := fun k => (Vec.mem_keys_iff hz k).symm
  have hmax : (∃ k ∈ f.dict.keys, k.sum = m) ∧ ∀ k ∈ f.dict.keys, k.sum ≤ m := by
    cases hks : f.dict.keys with
    | nil =>
      exfalso; apply hlen
      rw [Vec.len_zero_iff hz]
      intro k
      by_contra hk
      rw [← ne_eq, hmem, hks] at hk
      simp at hk
    | cons k0 ks =>
      rw [highestDegree, hks, List.map_cons] at hm
      obtain ⟨h1, h2, h3⟩ := foldl_natmax_spec (ks.map List.sum) k0.sum
      simp only at hm
      rw [hm] at h1 h2 h3
      refine ⟨?_, fun k hk => ?_⟩
      · rcases h1 with h1 | h1
        · exact ⟨k0, by simp, h1.symm⟩
        · obtain ⟨k, hk, hk'⟩ := List.mem_map.1 h1
          exact ⟨k, by simp [hk], hk'⟩
      · rcases List.mem_cons.1 hk with rfl | hk
        · exact h2
        · exact h3 _ (List.mem_map_of_mem hk)
  obtain ⟨⟨k1, hk1, hk1m⟩, hall⟩ := hmax
  have hgk : ∀ k, k ∈ g.dict.keys ↔ k ∈ f.dict.keys ∧ k.sum = m := by
    intro k
    rw [Vec.mem_keys_iff hgz, hget, ← hmem]
    split
    · rename_i h; exact ⟨fun h' => ⟨h', h⟩, fun h' => h'.1⟩
    · rename_i h; exact ⟨fun h' => absurd rfl h', fun h' => absurd h'.2 h⟩
  rw [termFromHighest, hg, maxKey]
  cases hks : g.dict.keys with
  | nil =>
    have := (hgk k1).2 ⟨hk1, hk1m⟩
    rw [hks] at this; simp at this
  | cons k0 ks =>
    obtain ⟨h1, h2, h3⟩ := foldl_max_spec ks k0
    simp only
    generalize ks.foldl (fun m k => if m < k then k else m) k0 = t at *
    have ht : t ∈ g.dict.keys := by
      rw [hks]
      rcases h1 with h1 | h1
      · simp [h1]
      · simp [h1]
    have ht' := (hgk t).1 ht
    refine ⟨t, rfl, (hmem t).2 ht'.1, fun k hk hkt => ?_⟩
    rw [hmem] at hk
    by_cases hkm : k.sum = m
    · right
      refine ⟨by rw [ht'.2, hkm], lt_of_not_lt ?_ hkt⟩
      have := (hgk k).2 ⟨hk, hkm⟩
      rw [hks] at this
      rcases List.mem_cons.1 this with rfl | h
      · exact h2
      · exact h3 k h
    · left
      have := hall k hk
      have := ht'.2
      omega

/-- The expansion in a family that does not make the first row longer. -/
theorem triangular_expansion {n : Nat} {function : List Nat → Option SymPoly} {bef : List Nat → List Nat → Prop}
    {getTerm : SymPoly → Option (List Nat)} (ht : Triangular n function bef) (hg : FindsFirst n getTerm bef)
    (hfirst : ∀ mu, IsPartition mu → mu.length ≤ n → ∀ k, fden function mu k ≠ 0 → k.getD 0 0 ≤ mu.getD 0 0)
    {f : SymPoly} (hf : IsSym n f) (hz : Vec.NoZero f) (hb : ∀ k, BetaOnly (f.get k).den) :
    ∃ N ans, (∀ fuel ≥ N, expansion function getTerm fuel f = some ans) ∧
      f.den = combine function ans.den ∧ (∀ k, ans.get k ≠ 0 → IsPartition k ∧ k.length ≤ n) ∧
      (∀ k, BetaOnly (ans.get k).den) ∧ Vec.NoZero ans := by
  classical
  obtain ⟨D, hD⟩ : ∃ D, ∀ k ∈ f.dict.keys, k.getD 0 0 ≤ D := by
    have : ∀ l : List (List Nat), ∃ D, ∀ k ∈ l, k.getD 0 0 ≤ D := by
      intro l
      induction l with
      | nil => exact ⟨0, by simp⟩
      | cons a l ih =>
        obtain ⟨D, hD⟩ := ih
        refine ⟨max (a.getD 0 0) D, fun k hk => ?_⟩
        rcases List.mem_cons.1 hk with rfl | hk
        · omega
        · have := hD k hk; omega
    exact this _
  obtain ⟨S, hS⟩ : ∃ S : Finset (List Nat), ∀ k, k ∈ S ↔ (k.length ≤ n ∧ ∀ a ∈ k, a ≤ D) ∧ IsPartition k :=
    ⟨(box_finite n D).toFinset.filter IsPartition, fun k => by simp⟩
  obtain ⟨N, ans, h1, h2⟩ := expansion_exists ht hg S
    (fun mu hmu => ⟨((hS mu).1 hmu).2, ((hS mu).1 hmu).1.1⟩)
    (fun mu hmu k hk => by
      have hmu := (hS mu).1 hmu
      have hle := hfirst mu hmu.2 hmu.1.1 k hk
      obtain ⟨g, e1, e2, _, _, _⟩ := ht.family mu hmu.2 hmu.1.1
      rw [fden, e1, Option.map_some, Option.getD_some] at hk
      obtain ⟨c1, c2⟩ := den_support e2 k hk
      refine (hS k).2 ⟨⟨c2, first_part_le c1 (hle.trans ?_)⟩, c1⟩
      cases mu with
      | nil => exact Nat.zero_le _
      | cons a mu => exact hmu.1.2 a (by simp)) f hf hz hb (fun k hk => by
      rw [← Vec.mem_keys_iff hz] at hk
      have := hf.keys k hk
      exact (hS k).2 ⟨⟨this.2, first_part_le this.1 (hD k hk)⟩, this.1⟩)
  refine ⟨N, ans, h1, h2.eq, fun k hk => ?_, h2.beta, h2.noZero⟩
  rw [← Vec.mem_keys_iff h2.noZero] at hk
  have := (hS k).1 (h2.keys k hk)
  exact ⟨this.2, this.1.1⟩

/-! ### reverse plane partitions of highest weight are semistandard tableaux -/

theorem rpp_strict {n : Nat} {mu nu : List Nat} (hm : IsPartition mu) (hn : IsPartition nu) {T : Tab}
    (h : IsTab rppRules nu n mu T) (hs : ∑ i ∈ Finset.range n, tabWeight rppRules colOm T i + nu.sum = mu.sum) :
    T ∈ semistandard false nu n mu ∧ ∀ i < n, tabWeight rppRules colOm T i = T.entries.count ((i : Int) + 1) := by
  have h1 := isTab_length h
  have h2 := sum_boxesWith rfl rppRules_inj h
  have heq : ∀ i ∈ Finset.range n, tabWeight rppRules colOm T i = (boxesWith T (rppRules.val (i + 1))).card := by
    refine (Finset.sum_eq_sum_iff_of_le (fun i _ => colOm_le _ _)).1 ?_
    simp only [tabWeight] at hs
    omega
  have hinjOn : ∀ i < n, ∀ b ∈ boxesWith T (rppRules.val (i + 1)), ∀ b' ∈ boxesWith T (rppRules.val (i + 1)),
      b.2 = b'.2 → b = b' := by
    intro i hi
    have := heq i (Finset.mem_range.2 hi)
    rw [tabWeight, colOm, Finset.card_image_iff] at this
    intro b hb b' hb' he
    exact this hb hb' he
  have hv : ∀ i : Nat, rppRules.val (i + 1) = (i : Int) + 1 := fun i => by simp [rppRules]
  refine ⟨?_, fun i hi => by rw [heq i (Finset.mem_range.2 hi), count_entries h.canon, hv]⟩
  rw [C24_semistandard n hm hn]
  obtain ⟨hsub, f, hf, g1, g2⟩ := (C47_semistandard_rpp n hm hn T).1 ((isTab_semistandardRpp hn n hm).2 h)
  refine ⟨hsub, f, ⟨hf.1, hf.2.1, fun i j a b => ?_⟩, g1, g2⟩
  refine lt_of_le_of_ne (hf.2.2 i j a b) (fun he => ?_)
  have hr := hf.1 _ a
  have e1 : f (i, j) ∈ T.ent (i, j) := by rw [ent, g1 _ a]; simp
  have e2 : f (i, j) ∈ T.ent (i + 1, j) := by rw [ent, g1 _ b, he]; simp
  have e3 : f (i, j) = rppRules.val ((f (i, j)).toNat - 1 + 1) := by rw [hv]; omega
  have := hinjOn ((f (i, j)).toNat - 1) (by omega) (i, j) (mem_boxesWith.2 (e3 ▸ e1)) (i + 1, j)
    (mem_boxesWith.2 (e3 ▸ e2)) rfl
  rw [Prod.mk.injEq] at this
  omega

theorem rpp_of_semistandard {n : Nat} {mu nu : List Nat} (hm : IsPartition mu) (hn : IsPartition nu) {T : Tab}
    (h : T ∈ semistandard false nu n mu) :
    T ∈ semistandardRpp nu n mu ∧ ∀ i < n, tabWeight rppRules colOm T i = T.entries.count ((i : Int) + 1) := by
  have hT : T ∈ semistandardRpp nu n mu := by
    rw [C24_semistandard n hm hn] at h
    rw [C47_semistandard_rpp n hm hn]
    obtain ⟨hsub, f, hf, g1, g2⟩ := h
    exact ⟨hsub, f, ⟨hf.1, hf.2.1, fun i j a b => (hf.2.2 i j a b).le⟩, g1, g2⟩
  have hSV := ((mem_semistandard hn n hm T).1 h).2
  refine ⟨hT, fun i hi => ?_⟩
  have hI := (isTab_semistandardRpp hn n hm).1 hT
  rw [count_entries hI.canon, tabWeight, colOm]
  have hv : rppRules.val (i + 1) = (i : Int) + 1 := by simp [rppRules]
  rw [hv, Finset.card_image_iff]
  rintro ⟨a, j⟩ ha ⟨b, j'⟩ hb he
  have he : j = j' := he
  subst he
  rw [Finset.mem_coe, mem_boxesWith] at ha hb
  rcases Nat.lt_trichotomy a b with hab | hab | hab
  · have := hSV.col a b j hab _ ha _ hb; omega
  · rw [hab]
  · have := hSV.col b a j hab _ hb _ ha; omega

theorem rppCount_top {n : Nat} {mu : List Nat} (hm : IsPartition mu) {k : List Nat} (hk : k.sum = mu.sum) :
    (countSemistandardRpp [] n mu).getD k 0 = (countSemistandard false [] n mu).getD k 0 := by
  by_cases hkp : IsPartition k ∧ k.length ≤ n
  · rw [(C48_count_rpp n hm isPartition_nil k).1 hkp, (count_spec isPartition_nil n hm k).1 hkp, tabCount]
    congr 2
    ext T
    rw [Finset.mem_filter, Finset.mem_filter]
    constructor
    · rintro ⟨h1, h2⟩
      have h1' := (isTab_semistandardRpp isPartition_nil n hm).1 h1
      rw [rppWeight_eq h1'] at h2
      have h3 : ∀ i < n, tabWeight rppRules colOm T i = k.getD i 0 := fun i hi => by
        rw [← h2 i hi, getD_wtL _ _ _ hi]
      have h4 := rpp_strict hm isPartition_nil h1' (by
        rw [Finset.sum_congr rfl (fun i hi => h3 i (Finset.mem_range.1 hi)), sum_range_length hkp.2, hk]; rfl)
      exact ⟨h4.1, fun i hi => by rw [← h4.2 i hi, h3 i hi]⟩
    · rintro ⟨h1, h2⟩
      have h3 := rpp_of_semistandard hm isPartition_nil h1
      refine ⟨h3.1, fun i hi => ?_⟩
      rw [rppWeight_eq ((isTab_semistandardRpp isPartition_nil n hm).1 h3.1), getD_wtL _ _ _ hi, h3.2 i hi, h2 i hi]
  · rw [(C48_count_rpp n hm isPartition_nil k).2 hkp, (count_spec isPartition_nil n hm k).2 hkp]

theorem rppCount_support {n : Nat} {mu k : List Nat} (hm : IsPartition mu)
    (h : (countSemistandardRpp [] n mu).getD k 0 ≠ 0) :
    IsPartition k ∧ k.length ≤ n ∧ k.getD 0 0 ≤ mu.getD 0 0 ∧ (k ≠ mu → beforeHigh mu k) := by
  by_cases hk : IsPartition k ∧ k.length ≤ n
  swap
  · exact absurd ((C48_count_rpp n hm isPartition_nil k).2 hk) h
  have h' := h
  rw [(C48_count_rpp n hm isPartition_nil k).1 hk] at h'
  have h6 : ((semistandardRpp [] n mu).filter (fun T => ∀ i < n, (rppWeight n T).getD i 0 = k.getD i 0)).card ≠ 0 := by
    exact_mod_cast h'
  obtain ⟨T, hT⟩ := Finset.card_ne_zero.1 h6
  rw [Finset.mem_filter] at hT
  have hI := (isTab_semistandardRpp isPartition_nil n hm).1 hT.1
  rw [rppWeight_eq hI] at hT
  have h3 : ∀ i < n, tabWeight rppRules colOm T i = k.getD i 0 := fun i hi => by
    rw [← hT.2 i hi, getD_wtL _ _ _ hi]
  have hle := sum_rppWeight_le hI
  rw [Finset.sum_congr rfl (fun i hi => h3 i (Finset.mem_range.1 hi)), sum_range_length hk.2] at hle
  refine ⟨hk.1, hk.2, ?_, fun hne => ?_⟩
  · by_cases h0 : 0 < n
    · rw [← h3 0 h0]
      exact rppWeight_le_first hm hI 0
    · obtain rfl : k = [] := List.length_eq_zero_iff.1 (by omega)
      exact Nat.zero_le _
  · by_cases hs : k.sum = mu.sum
    · rw [rppCount_top hm hs] at h
      rcases (count_support hm h).2.2.2.2.2.1 hne with h7 | h7
      · omega
      · exact Or.inr h7
    · simp only [List.sum_nil] at hle
      exact Or.inl (by omega)

theorem rppCount_self {n : Nat} {mu : List Nat} (hm : IsPartition mu) (hl : mu.length ≤ n) :
    (countSemistandardRpp [] n mu).getD mu 0 = 1 := by
  rw [rppCount_top hm rfl, count_self hm hl]

/-- `function(n, mu)` is the sum over reverse plane partitions of shape `mu`, with a factor `w` for each box more than
the weight. -/
def IsDualFamily (n : Nat) (w : PolyVal) (function : List Nat → Option SymPoly) : Prop :=
  ∀ mu, IsPartition mu → ∃ g, function mu = some g ∧ IsSym n g ∧
    ∀ k, g.get k = ((countSemistandardRpp [] n mu).getD k 0 : PolyVal) * w ^ (mu.sum - k.sum)

theorem dual_count {n : Nat} {w : PolyVal} {function : List Nat → Option SymPoly}
    (hF : IsDualFamily n w function) {mu : List Nat} (hm : IsPartition mu) {k : List Nat}
    (hk : fden function mu k ≠ 0) : (countSemistandardRpp [] n mu).getD k 0 ≠ 0 := by
  obtain ⟨g, h1, _, h3⟩ := hF mu hm
  rw [fden, h1, Option.map_some, Option.getD_some, Vec.den_apply, h3] at hk
  intro h
  rw [h] at hk
  simp at hk

theorem dual_triangular {n : Nat} {w : PolyVal} (hw : BetaOnly w.den) {function : List Nat → Option SymPoly}
    (hF : IsDualFamily n w function) : Triangular n function beforeHigh := by
  refine ⟨beforeHigh_trans, beforeHigh_irrefl, fun mu hm hl => ?_⟩
  obtain ⟨g, h1, h2, h3⟩ := hF mu hm
  refine ⟨g, h1, h2, ?_, fun k => ?_, fun k hk hne => ?_⟩
  · rw [h3, rppCount_self hm hl]; simp
  · rw [h3, PolyVal.den_mul, PolyVal.den_intCast, PolyVal.den_pow]
    exact betaOnly_mul (betaOnly_int _) (betaOnly_pow hw _)
  · refine (rppCount_support hm (n := n) (k := k) ?_).2.2.2 hne
    intro h
    rw [h3, h] at hk
    simp at hk

/-- The sum over reverse plane partitions. -/
theorem phi_rpp {n : Nat} {w : PolyVal} {mu nu : List Nat} (hm : IsPartition mu) (hn : IsPartition nu)
    {u : List Nat →₀ PolyVal} (hu : ∀ k, u k = ((countSemistandardRpp nu n mu).getD k 0 : PolyVal) *
      w ^ (mu.sum - nu.sum - k.sum)) (v : Int → Poly) :
    phi (xden v) n u = ∑ T ∈ semistandardRpp nu n mu,
      w.den ^ (T.items.length - (rppWeight n T).sum) * xm (xden v) 1 (rppWeight n T) := by
  have hc := C48_count_rpp n hm hn
  rw [phi_weights v (rpp_swap hn n hm) _ (fun s => w ^ (mu.sum - nu.sum - s))]
  · refine Finset.sum_congr rfl (fun T hT => ?_)
    have hI := (isTab_semistandardRpp hn n hm).1 hT
    have := isTab_length hI
    rw [rppWeight_eq hI, PolyVal.den_pow]
    congr 3
    omega
  · intro k hk
    rw [hu]
    congr 2
    rw [(rpp_countSetup hn).count n mu hm, if_pos hk,
      ← (rpp_countSetup hn).stable hk.2 hm (fun i h1 _ => List.getD_eq_default _ _ h1)]
  · intro k hk
    rw [hu, (hc k).2 hk]
    simp

theorem phi_dualFamily {n : Nat} {w : PolyVal} {function : List Nat → Option SymPoly} (hF : IsDualFamily n w function)
    {mu : List Nat} (hm : IsPartition mu) (v : Int → Poly) :
    phi (xden v) n (fden function mu) = ∑ T ∈ semistandardRpp [] n mu,
      w.den ^ (T.items.length - (rppWeight n T).sum) * xm (xden v) 1 (rppWeight n T) := by
  obtain ⟨g, h1, _, h3⟩ := hF mu hm
  refine phi_rpp hm isPartition_nil (fun k => ?_) v
  rw [fden, h1, Option.map_some, Option.getD_some, Vec.den_apply, h3]
  rfl

theorem dualStableGrothendieck_spec (v : Int → Poly) (n : Nat) {mu nu : List Nat} (hm : IsPartition mu)
    (hn : IsPartition nu) :
    ∃ f, dualStableGrothendieck n mu nu = some f ∧ IsSym n f ∧ Vec.NoZero f ∧
      (∀ k, f.get k = ((countSemistandardRpp nu n mu).getD k 0 : PolyVal) *
        (-PolyVal.mk Poly.beta) ^ (mu.sum - nu.sum - k.sum)) ∧
      (polynomial v n f).den = ∑ T ∈ semistandardRpp nu n mu,
        (-Laurent.xpow 0 1) ^ (T.items.length - (rppWeight n T).sum) * xm (xden v) 1 (rppWeight n T) := by
  obtain ⟨f, h1, h2, h3, h4, h5⟩ := dualVectorize_spec v (rpp_swap hn n hm) ((rpp_countSetup hn).keys n mu hm)
    (fun k hk => by
      rw [(rpp_countSetup hn).count n mu hm, if_pos hk,
        ← (rpp_countSetup hn).stable hk.2 hm (fun i h1 _ => List.getD_eq_default _ _ h1)])
    (fun k hk => (C48_count_rpp n hm hn k).2 hk) (mu := mu) (nu := nu)
    (fun T hT => sum_rppWeight_le ((isTab_semistandardRpp hn n hm).1 hT))
  refine ⟨f, h1, h2, h3, h4, ?_⟩
  rw [h5]
  refine Finset.sum_congr rfl (fun T hT => ?_)
  have hI := (isTab_semistandardRpp hn n hm).1 hT
  have := isTab_length hI
  rw [rppWeight_eq hI, sum_wtL]
  congr 2
  omega

theorem family_dual (n : Nat) : IsDualFamily n (-PolyVal.mk Poly.beta) (fun mu => dualStableGrothendieck n mu []) := by
  intro mu hm
  obtain ⟨f, h1, h2, _, h4, _⟩ := dualStableGrothendieck_spec Poly.x n hm isPartition_nil
  exact ⟨f, h1, h2, h4⟩

theorem mul_neg_pow (c : ℤ) (a : PolyVal) (k : Nat) : (c : PolyVal) * (-a) ^ k = ((c * (-1) ^ k : ℤ) : PolyVal) * a ^ k := by
  rw [neg_pow]; push_cast; ring

theorem mpDual_spec (n : Nat) {mu nu : List Nat} (hm : IsPartition mu) (hn : IsPartition nu) :
    ∃ f, mpDualStableGrothendieck n mu nu = some f ∧ IsSym n f ∧ Vec.NoZero f ∧
      (∀ k, f.get k = ((countSemistandardRpp nu n mu).getD k 0 : PolyVal) *
        PolyVal.mk Poly.beta ^ (mu.sum - nu.sum - k.sum)) := by
  obtain ⟨f, h1, h2, h3, h4, _⟩ := dualStableGrothendieck_spec Poly.x n hm hn
  have hsub : ∀ k, (f.get k).substitute 0 (Poly.neg Poly.beta) =
      some (((countSemistandardRpp nu n mu).getD k 0 : PolyVal) *
        PolyVal.mk Poly.beta ^ (mu.sum - nu.sum - k.sum)) := by
    intro k
    rw [h4, mul_neg_pow, substitute_beta, ← mul_neg_pow, neg_neg]
  obtain ⟨g, g1, g2, g3, g4⟩ := negateBeta_spec h2
    (fun a => (a.substitute 0 (Poly.neg Poly.beta)).getD 0) (by decide +kernel) (fun k hk => by
      rw [hsub]; rfl)
  refine ⟨g, ?_, g2, g3, fun k => ?_⟩
  · rw [mpDualStableGrothendieck, h1]; exact g1
  · rw [g4, hsub]; rfl

theorem family_mpDual (n : Nat) : IsDualFamily n (PolyVal.mk Poly.beta) (fun mu => mpDualStableGrothendieck n mu []) := by
  intro mu hm
  obtain ⟨f, h1, h2, _, h4⟩ := mpDual_spec n hm isPartition_nil
  exact ⟨f, h1, h2, h4⟩

end Verif.Symm
