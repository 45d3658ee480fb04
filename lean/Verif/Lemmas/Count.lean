import Verif.Lemmas.Semistandard
import Mathlib.RingTheory.Binomial
import Mathlib.Algebra.BigOperators.Fin
import Mathlib.Tactic.Ring
import Mathlib.Tactic.LinearCombination

set_option linter.unusedSectionVars false

/-! `nchoosek`, the numbers of entries of tableaux, and `_count_semistandard`. -/

namespace Verif.Tableaux

open Part Partition Tab

attribute [-simp] List.getD_eq_getElem?_getD

/-! ### nchoosek -/

theorem foldl_mul_eq_prod (m : Int) (k : Nat) :
    (List.range k).foldl (fun ans (i : Nat) => ans * (m - i)) 1 = ∏ i ∈ Finset.range k, (m - i) := by
  induction k with
  | zero => simp
  | succ k ih => rw [List.range_succ, List.foldl_append, ih, Finset.prod_range_succ]; rfl

theorem prod_eq_factorial_mul_choose (m : Int) (k : Nat) :
    ∏ i ∈ Finset.range k, (m - (i : Int)) = (k.factorial : Int) * Ring.choose m k := by
  have h := Ring.descPochhammer_eq_factorial_smul_choose m k
  rw [nsmul_eq_mul] at h
  rw [← h]
  have : (descPochhammer ℤ k).smeval m = (descPochhammer ℤ k).eval m := (Polynomial.eval_eq_smeval _ _).symm
  rw [this]
  induction k with
  | zero => simp
  | succ k ih =>
    rw [Finset.prod_range_succ, descPochhammer_succ_right, Polynomial.eval_mul]
    have h' := Ring.descPochhammer_eq_factorial_smul_choose m k
    rw [nsmul_eq_mul] at h'
    rw [ih h' (Polynomial.eval_eq_smeval _ _).symm]
    simp

theorem foldl_fdiv (j : Nat) (t : Int) :
    (List.range j).foldl (fun ans (i : Nat) => Int.fdiv ans (i + 1)) ((j.factorial : Int) * t) = t := by
  induction j generalizing t with
  | zero => simp
  | succ j ih =>
    rw [List.range_succ, List.foldl_append]
    have : ((j + 1).factorial : Int) * t = (j.factorial : Int) * (((j : Int) + 1) * t) := by
      rw [Nat.factorial_succ]; push_cast; ring
    rw [this, ih]
    simp only [List.foldl_cons, List.foldl_nil]
    exact Int.mul_fdiv_cancel_left t (by omega)

theorem nchoosek_eq (m : Int) (k : Nat) : nchoosek m k = Ring.choose m k := by
  unfold nchoosek
  simp only [foldl_mul_eq_prod, prod_eq_factorial_mul_choose, foldl_fdiv]

theorem nchoosek_natCast (m k : Nat) : nchoosek m k = (m.choose k : Int) := by
  rw [nchoosek_eq, Ring.choose_natCast]

/-! ### Numbers of entries -/

theorem count_entries_eq (T : Tab) (B : Finset (Nat × Nat)) (hB : ∀ b, T.ent b ≠ [] → b ∈ B) (x : Int) :
    T.entries.count x = ∑ b ∈ B, (T.ent b).count x := by
  have h1 : T.entries.count x = ∑ b ∈ (T.items.map Prod.fst).toFinset, (T.ent b).count x := by
    rw [List.sum_toFinset _ T.keys_nodup, List.map_map, entries, List.count_flatMap]
    congr 1
    apply List.map_congr_left
    rintro ⟨b, s⟩ hp
    simp only [Function.comp]
    rw [ent, get?_eq_some.2 hp]
    rfl
  rw [h1]
  have hz : ∀ b, T.ent b = [] → (T.ent b).count x = 0 := by intro b h; rw [h]; rfl
  rw [← Finset.sum_filter_of_ne (s := B) (p := fun b => b ∈ (T.items.map Prod.fst).toFinset)]
  · refine Finset.sum_subset_zero_on_sdiff ?_ ?_ (fun b _ => rfl) |>.symm
    · intro b hb; exact (Finset.mem_filter.1 hb).2
    · intro b hb
      rw [Finset.mem_sdiff, Finset.mem_filter] at hb
      apply hz
      by_contra hne
      exact hb.2 ⟨hB b hne, hb.1⟩
  · intro b _ hne
    rw [List.mem_toFinset]
    by_contra hb
    apply hne
    apply hz
    unfold ent get?
    rw [Dict.lookup_eq_none.2 hb]; rfl

theorem count_addAll {T : Tab} {aug : List (Nat × Nat)} (hnd : aug.Nodup) {v : Int}
    (hs : ∀ b, (T.ent b).Pairwise (· < ·)) (hv : ∀ b, ∀ x ∈ T.ent b, x < v) (x : Int) :
    (addAll aug v T).entries.count x = T.entries.count x + if x = v then aug.length else 0 := by
  have hent := ent_addAll aug hnd v T hs hv
  let B := (T.items.map Prod.fst).toFinset ∪ aug.toFinset
  have hT : ∀ b, T.ent b ≠ [] → b ∈ B := by
    intro b hb
    apply Finset.mem_union_left
    rw [List.mem_toFinset]
    by_contra hc
    apply hb
    unfold ent get?
    rw [Dict.lookup_eq_none.2 hc]; rfl
  have hT' : ∀ b, (addAll aug v T).ent b ≠ [] → b ∈ B := by
    intro b hb
    rw [hent] at hb
    by_cases h : b ∈ aug
    · exact Finset.mem_union_right _ (by simpa using h)
    · rw [if_neg h, List.append_nil] at hb
      exact hT b hb
  rw [count_entries_eq _ B hT', count_entries_eq _ B hT]
  simp only [hent, List.count_append, Finset.sum_add_distrib]
  congr 1
  have : ∀ b, (if b ∈ aug then [v] else []).count x = if b ∈ aug.toFinset then (if x = v then 1 else 0) else 0 := by
    intro b
    by_cases h : b ∈ aug <;> by_cases hx : x = v
    · simp [h, hx]
    · simp [h, hx, List.count_cons, Ne.symm hx]
    · simp [h]
    · simp [h]
  simp only [this]
  rw [← Finset.sum_filter, Finset.filter_mem_eq_inter,
    Finset.inter_eq_right.2 (Finset.subset_union_right), Finset.sum_const, List.toFinset_card_of_nodup hnd]
  split <;> simp

theorem length_subsetBits_sum {R : Type*} [AddCommMonoid R] (g : Nat → R) (corners diff : List (Nat × Nat))
    (hc : corners.Nodup) (hdisj : ∀ b ∈ corners, b ∉ diff) :
    ∑ v ∈ Finset.range (2 ^ corners.length), g (subsetBits diff v corners).length =
      ∑ i ∈ Finset.range (corners.length + 1), (corners.length.choose i) • g (diff.length + i) := by
  induction corners generalizing diff with
  | nil => simp [subsetBits]
  | cons c corners ih =>
    rw [List.nodup_cons] at hc
    have hcd := hdisj c (by simp)
    have hsplit : ∀ (N : Nat) (F : Nat → R), ∑ v ∈ Finset.range (2 * N), F v =
        ∑ v ∈ Finset.range N, F (2 * v) + ∑ v ∈ Finset.range N, F (2 * v + 1) := by
      intro N F
      induction N with
      | zero => simp
      | succ N ihN =>
        rw [show 2 * (N + 1) = 2 * N + 1 + 1 by ring, Finset.sum_range_succ, Finset.sum_range_succ, ihN,
          Finset.sum_range_succ, Finset.sum_range_succ]
        abel
    rw [List.length_cons, Nat.pow_succ, Nat.mul_comm, hsplit]
    have h0 : ∀ v, subsetBits diff (2 * v) (c :: corners) = subsetBits diff v corners := by
      intro v
      rw [subsetBits, if_pos (by omega), show 2 * v / 2 = v by omega]
    have h1 : ∀ v, subsetBits diff (2 * v + 1) (c :: corners) = subsetBits (diff ++ [c]) v corners := by
      intro v
      rw [subsetBits, if_neg (by omega), if_neg hcd, show (2 * v + 1) / 2 = v by omega]
    simp only [h0, h1]
    rw [ih diff hc.2 (fun b hb => hdisj b (List.mem_cons_of_mem _ hb)),
      ih (diff ++ [c]) hc.2 (fun b hb => by
        have h2 := hdisj b (List.mem_cons_of_mem _ hb)
        have h3 : b ≠ c := by rintro rfl; exact hc.1 hb
        simp [h2, h3])]
    set k := corners.length
    rw [Finset.sum_range_succ' _ (k + 1)]
    simp only [Nat.choose_succ_succ, add_smul, Finset.sum_add_distrib, Nat.choose_zero_right, one_smul,
      Nat.add_zero, List.length_append, List.length_singleton]
    have e1 : ∑ x ∈ Finset.range (k + 1), k.choose x • g (diff.length + 1 + x) =
        ∑ x ∈ Finset.range (k + 1), k.choose x • g (diff.length + (x + 1)) := by
      apply Finset.sum_congr rfl
      intro x _
      rw [show diff.length + 1 + x = diff.length + (x + 1) by ring]
    rw [e1]
    have e2 : ∑ i ∈ Finset.range (k + 1), k.choose i • g (diff.length + i) =
        ∑ x ∈ Finset.range (k + 1), k.choose (x + 1) • g (diff.length + (x + 1)) + g (diff.length) := by
      rw [Finset.sum_range_succ' _ k, Finset.sum_range_succ (fun x => k.choose (x + 1) • g (diff.length + (x + 1)))]
      simp
    rw [e2]
    abel

/-- How many corner counts `_count_semistandard` looks at (L735). -/
def cornerBound (sv : Bool) (s : List Nat × List (Nat × Nat) × List (Nat × Nat)) : Nat :=
  if sv then s.2.2.length + 1 else 1

theorem sum_subsets {R : Type*} [AddCommMonoid R] {mu lam s} (h : StripRec mu lam s) (sv : Bool) (g : Nat → R) :
    ∑ aug ∈ (subsets s.2.1 s.2.2 sv).toFinset, g aug.length =
      ∑ i ∈ Finset.range (cornerBound sv s), (s.2.2.length.choose i) • g (s.2.1.length + i) := by
  rw [List.sum_toFinset _ (subsets_nodup h sv)]
  unfold subsets cornerBound
  split
  · rw [← length_subsetBits_sum g _ _ h.corner_nodup (fun b hb => h.corner_notMem_diff hb), List.map_map,
      Finset.sum_range]
    rw [← List.sum_ofFn]
    congr 1
    apply List.ext_getElem
    · simp
    · intro i h1 h2
      simp
  · simp

/-- The recursion for sums of functions of the numbers of entries. -/
theorem sum_counts_succ {R : Type*} [AddCommMonoid R] {sv : Bool} {lam : List Nat} (hl : IsPartition lam)
    (n : Nat) {mu : List Nat} (hm : IsPartition mu) (F : Nat → (Nat → Nat) → R) :
    ∑ T ∈ semistandard sv lam (n + 1) mu, F (T.entries.count ((n : Int) + 1))
        (fun i => if i < n then T.entries.count ((i : Int) + 1) else 0) =
      ∑ s ∈ (horizontalStrips mu lam).toFinset,
        ∑ i ∈ Finset.range (cornerBound sv s), (s.2.2.length.choose i) •
          ∑ T ∈ semistandard sv lam n s.1, F (s.2.1.length + i)
            (fun i => if i < n then T.entries.count ((i : Int) + 1) else 0) := by
  rw [sum_semistandard_succ hl n hm]
  by_cases hc : contains mu lam = true
  swap
  · rw [strips_of_not_contains hc]; simp
  obtain ⟨_, _, hrec, _⟩ := horizontalStrips_spec hm hl hc
  refine Finset.sum_congr rfl (fun s hs => ?_)
  rw [List.mem_toFinset] at hs
  have hr := hrec s hs
  rw [← sum_subsets hr sv (fun m => ∑ T ∈ semistandard sv lam n s.1, F m
            (fun i => if i < n then T.entries.count ((i : Int) + 1) else 0))]
  refine Finset.sum_congr rfl (fun aug ha => ?_)
  rw [List.mem_toFinset] at ha
  refine Finset.sum_congr rfl (fun T hT => ?_)
  have hsv := ((mem_semistandard hl n hr.strip.1 T).1 hT).2
  have hcount := count_addAll (subsets_aug hr ha).nodup hsv.sorted hsv.lt
  have h0 : T.entries.count ((n : Int) + 1) = 0 := by
    rw [List.count_eq_zero]
    intro h
    obtain ⟨b, hb⟩ := mem_entries.1 h
    have := hsv.lt b _ hb
    omega
  congr 1
  · rw [hcount, h0]; simp
  · funext i
    split
    · rw [hcount, if_neg (by omega), Nat.add_zero]
    · rfl

/-! ### _count_semistandard -/

/-- The number of tableaux with `alpha i` entries `i + 1`, for all `i < n`. -/
def tabCount (sv : Bool) (lam : List Nat) (n : Nat) (mu : List Nat) (alpha : Nat → Nat) : Int :=
  (((semistandard sv lam n mu).filter (fun T => ∀ i < n, T.entries.count ((i : Int) + 1) = alpha i)).card : Nat)

open Classical in
theorem tabCount_eq_sum (sv : Bool) (lam : List Nat) (n : Nat) (mu : List Nat) (alpha : Nat → Nat) :
    tabCount sv lam n mu alpha = ∑ T ∈ semistandard sv lam n mu,
      if (fun i => if i < n then T.entries.count ((i : Int) + 1) else 0) = (fun i => if i < n then alpha i else 0)
        then 1 else 0 := by
  rw [tabCount, Finset.card_filter]
  push_cast
  refine Finset.sum_congr rfl (fun T _ => ?_)
  congr 1
  rw [eq_iff_iff, funext_iff]
  constructor
  · intro h i
    by_cases hi : i < n
    · simp [hi, h i hi]
    · simp [hi]
  · intro h i hi
    simpa [hi] using h i

open Classical in
theorem tabCount_succ {sv : Bool} {lam : List Nat} (hl : IsPartition lam) (n : Nat) {mu : List Nat}
    (hm : IsPartition mu) (alpha : Nat → Nat) :
    tabCount sv lam (n + 1) mu alpha = ∑ s ∈ (horizontalStrips mu lam).toFinset,
      ∑ i ∈ Finset.range (cornerBound sv s),
        if s.2.1.length + i = alpha n then nchoosek s.2.2.length i * tabCount sv lam n s.1 alpha else 0 := by
  have h := sum_counts_succ (R := Int) (sv := sv) hl n hm
    (fun m f => if m = alpha n ∧ f = (fun i => if i < n then alpha i else 0) then 1 else 0)
  have e : tabCount sv lam (n + 1) mu alpha = ∑ T ∈ semistandard sv lam (n + 1) mu,
      if T.entries.count ((n : Int) + 1) = alpha n ∧ (fun i => if i < n then T.entries.count ((i : Int) + 1) else 0)
        = (fun i => if i < n then alpha i else 0) then 1 else 0 := by
    rw [tabCount, Finset.card_filter]
    push_cast
    refine Finset.sum_congr rfl (fun T _ => ?_)
    congr 1
    rw [eq_iff_iff, funext_iff]
    constructor
    · intro h
      refine ⟨by simpa using h n (by omega), fun i => ?_⟩
      by_cases hi : i < n
      · simp [hi, h i (by omega)]
      · simp [hi]
    · rintro ⟨h1, h2⟩ i hi
      by_cases hin : i < n
      · simpa [hin] using h2 i
      · have : i = n := by omega
        subst this
        exact h1
  rw [e, h]
  refine Finset.sum_congr rfl (fun s _ => Finset.sum_congr rfl (fun i _ => ?_))
  split
  · rename_i hi
    rw [tabCount_eq_sum, nchoosek_natCast]
    simp only [hi, true_and, nsmul_eq_mul]
  · rename_i hi
    simp [hi]

theorem getD_bump {K : Type} [DecidableEq K] (ans : Dict K Int) (key : K) (v : Int) (k : K) :
    (bump ans key v).getD k 0 = ans.getD k 0 + if key = k then v else 0 := by
  unfold bump
  rw [Dict.getD_set]
  split
  · rename_i h; rw [h]
  · simp

/-- What the innermost loop adds to `ans[key]`. -/
def contrib (n d k : Nat) (p : List Nat) (c : Int) (key : List Nat) (i : Nat) : Int :=
  if d + i = 0 then (if p = key then c else 0)
  else if p.length < n ∨ (p ≠ [] ∧ d + i > p.getLastD 0) then 0
  else if p ++ [d + i] = key then c * nchoosek k i else 0

theorem countLoop_getD (n d k : Nat) (p : List Nat) (c : Int) (key : List Nat) (r a : Nat)
    (ans : Dict (List Nat) Int) :
    (countLoop (n + 1) d k p c (List.range' a r) ans).getD key 0 =
      ans.getD key 0 + ∑ i ∈ Finset.range r, contrib n d k p c key (a + i) := by
  induction r generalizing a ans with
  | zero => simp [countLoop]
  | succ r ih =>
    rw [List.range'_succ, countLoop]
    rw [Finset.sum_range_succ']
    have hshift : ∑ i ∈ Finset.range r, contrib n d k p c key (a + (i + 1)) =
        ∑ i ∈ Finset.range r, contrib n d k p c key (a + 1 + i) :=
      Finset.sum_congr rfl (fun i _ => by rw [show a + (i + 1) = a + 1 + i by ring])
    rw [hshift]
    split
    · rename_i h0
      rw [ih, getD_bump, contrib, Nat.add_zero a, if_pos h0]
      ring
    · rename_i h0
      simp only [Nat.add_sub_cancel]
      split
      · rename_i h1
        have hz : ∀ i, contrib n d k p c key (a + i) = 0 := by
          intro i
          rw [contrib, if_neg (by omega), if_pos]
          rcases h1 with h1 | h1
          · exact Or.inl h1
          · exact Or.inr ⟨h1.1, by omega⟩
        have hz1 : ∀ i, contrib n d k p c key (a + 1 + i) = 0 := by
          intro i; rw [Nat.add_assoc]; exact hz _
        simp only [hz, hz1]
        simp
      · rename_i h1
        rw [ih, getD_bump, contrib, Nat.add_zero a, if_neg h0, if_neg h1]
        ring

theorem foldl_getD {α : Type*} (l : List α) (step : Dict (List Nat) Int → α → Dict (List Nat) Int)
    (key : List Nat) (f : α → Int)
    (h : ∀ x ∈ l, ∀ ans, (step ans x).getD key 0 = ans.getD key 0 + f x) (ans : Dict (List Nat) Int) :
    (l.foldl step ans).getD key 0 = ans.getD key 0 + (l.map f).sum := by
  induction l generalizing ans with
  | nil => simp
  | cons x l ih =>
    rw [List.foldl_cons, ih (fun y hy => h y (List.mem_cons_of_mem _ hy)), h x (by simp), List.map_cons, List.sum_cons]
    ring

theorem mem_keys_bump {K : Type} [DecidableEq K] {ans : Dict K Int} {key k : K} {v : Int}
    (h : k ∈ (bump ans key v).keys) : k = key ∨ k ∈ ans.keys := by
  rw [Dict.mem_keys] at h
  obtain ⟨w, hw⟩ := h
  unfold bump at hw
  rw [Dict.get?_set] at hw
  split at hw
  · rename_i e; exact Or.inl e.symm
  · exact Or.inr (Dict.mem_keys.2 ⟨w, hw⟩)

theorem countLoop_keys (n d k : Nat) (p : List Nat) (c : Int) (hp : p.length ≤ n) (is : List Nat)
    (ans : Dict (List Nat) Int) (h : ∀ q ∈ ans.keys, q.length ≤ n + 1) :
    ∀ q ∈ (countLoop (n + 1) d k p c is ans).keys, q.length ≤ n + 1 := by
  induction is generalizing ans with
  | nil => exact h
  | cons i is ih =>
    rw [countLoop]
    split
    · apply ih
      intro q hq
      rcases mem_keys_bump hq with rfl | hq
      · omega
      · exact h q hq
    · split
      · exact h
      · apply ih
        intro q hq
        rcases mem_keys_bump hq with rfl | hq
        · simp; omega
        · exact h q hq

theorem foldl_inv {α β : Type*} (P : β → Prop) (l : List α) (step : β → α → β)
    (h : ∀ x ∈ l, ∀ b, P b → P (step b x)) (b : β) (hb : P b) : P (l.foldl step b) := by
  induction l generalizing b with
  | nil => exact hb
  | cons x l ih => exact ih (fun y hy => h y (List.mem_cons_of_mem _ hy)) _ (h x (by simp) b hb)

theorem count_keys (sv : Bool) (lam : List Nat) (n : Nat) :
    ∀ mu, ∀ q ∈ (countSemistandard sv lam n mu).keys, q.length ≤ n := by
  induction n with
  | zero =>
    intro mu q hq
    rw [countSemistandard] at hq
    split at hq
    · have : q = [] := by simpa [Dict.keys, Dict.set, Dict.empty, Dict.insertItem] using hq
      simp [this]
    · simp [Dict.keys, Dict.empty] at hq
  | succ n ih =>
    intro mu
    rw [countSemistandard]
    split
    · intro q hq
      have : q = [] := by simpa [Dict.keys, Dict.set, Dict.empty, Dict.insertItem] using hq
      simp [this]
    · split
      · apply foldl_inv (P := fun d : Dict (List Nat) Int => ∀ q ∈ d.keys, q.length ≤ n + 1)
        · intro s _ ans hans
          apply foldl_inv (P := fun d : Dict (List Nat) Int => ∀ q ∈ d.keys, q.length ≤ n + 1)
          · intro pc hpc ans hans
            exact countLoop_keys n _ _ _ _ (ih _ _ (Dict.mem_keys_of_items hpc)) _ _ hans
          · exact hans
        · intro q hq; simp [Dict.keys, Dict.empty] at hq
      · intro q hq; simp [Dict.keys, Dict.empty] at hq

theorem sum_items_eq {K : Type} [DecidableEq K] (d : Dict K Int) (k : K) (f : Int → Int) (hf : f 0 = 0) :
    (d.items.map (fun pc => if pc.1 = k then f pc.2 else 0)).sum = f (d.getD k 0) := by
  have hsum : ∀ l : List (K × Int), (l.map Prod.fst).Nodup →
      (l.map (fun pc => if pc.1 = k then f pc.2 else 0)).sum = f ((Dict.lookup k l).getD 0) := by
    intro l
    induction l with
    | nil => intro _; simp [Dict.lookup, hf]
    | cons a t ih =>
      intro hnd
      obtain ⟨k', v⟩ := a
      rw [List.map_cons, List.nodup_cons] at hnd
      rw [List.map_cons, List.sum_cons, ih hnd.2, Dict.lookup]
      by_cases h : k' = k
      · subst h
        have : Dict.lookup k' t = none := Dict.lookup_eq_none.2 hnd.1
        simp [this, hf]
      · simp [h]
  exact hsum d.items d.nodup

theorem isPartition_append {q : List Nat} {m : Nat} :
    IsPartition (q ++ [m]) ↔ IsPartition q ∧ 0 < m ∧ (q ≠ [] → m ≤ q.getLastD 0) := by
  unfold IsPartition
  rw [List.pairwise_append]
  constructor
  · rintro ⟨⟨h1, _, h3⟩, h4⟩
    refine ⟨⟨h1, fun a ha => h4 a (by simp [ha])⟩, h4 m (by simp), fun hq => ?_⟩
    rcases List.eq_nil_or_concat q with rfl | ⟨t, a, rfl⟩
    · exact absurd rfl hq
    · simpa using h3 a (by simp) m (by simp)
  · rintro ⟨⟨h1, h2⟩, h3, h4⟩
    refine ⟨⟨h1, by simp, ?_⟩, ?_⟩
    · intro a ha b hb
      simp at hb; subst hb
      rcases List.eq_nil_or_concat q with rfl | ⟨t, c, rfl⟩
      · simp at ha
      · rw [List.concat_eq_append] at *
        have h5 := h4 (by simp)
        simp at h5
        rcases List.mem_append.1 ha with h6 | h6
        · rw [List.pairwise_append] at h1
          have := h1.2.2 a h6 c (by simp)
          omega
        · simp at h6; omega
    · intro a ha
      rcases List.mem_append.1 ha with h | h
      · exact h2 a h
      · simp at h; omega

/-- `_count_semistandard` counts tableaux by weight, for the weights that are partitions. -/
theorem count_spec {sv : Bool} {lam : List Nat} (hl : IsPartition lam) (n : Nat) :
    ∀ {mu : List Nat}, IsPartition mu → ∀ key : List Nat,
      ((IsPartition key ∧ key.length ≤ n) →
        (countSemistandard sv lam n mu).getD key 0 = tabCount sv lam n mu (fun i => key.getD i 0)) ∧
      (¬ (IsPartition key ∧ key.length ≤ n) → (countSemistandard sv lam n mu).getD key 0 = 0) := by
  classical
  have hnil : ∀ key : List Nat, (Dict.empty.set [] 1 : Dict (List Nat) Int).getD key 0 = if key = [] then 1 else 0 := by
    intro key
    rw [Dict.getD_set]
    simp [eq_comm]
  have hself : ∀ (n : Nat) (key : List Nat), IsPartition key → key.length ≤ n →
      tabCount sv lam n lam (fun i => key.getD i 0) = if key = [] then 1 else 0 := by
    intro n key hk hkn
    have hs : semistandard sv lam n lam = {Tab.empty} := by
      cases n <;> rw [semistandard, if_pos rfl]
    rw [tabCount, hs, Finset.filter_singleton]
    by_cases h : key = []
    · subst h
      simp [Tab.entries, Tab.empty]
    · rw [if_neg h, if_neg]
      · simp
      · intro hc
        have h0 := hc 0 (by have := List.length_pos_iff.2 h; omega)
        have h1 := (getD_pos_iff hk.2 0).2 (List.length_pos_iff.2 h)
        simp only [Tab.entries, Tab.empty, List.flatMap_nil, List.count_nil] at h0
        omega
  induction n with
  | zero =>
    intro mu hm key
    rw [countSemistandard]
    by_cases h : mu = lam
    · subst h
      rw [if_pos rfl, hnil]
      refine ⟨fun ⟨hk, hkn⟩ => (hself 0 key hk hkn).symm, fun hk => ?_⟩
      rw [if_neg]
      rintro rfl
      exact hk ⟨⟨by simp, by simp⟩, by simp⟩
    · rw [if_neg h]
      simp only [Dict.getD_empty, implies_true, and_true]
      intro _
      rw [tabCount, semistandard, if_neg h]; simp
  | succ n ih =>
    intro mu hm key
    by_cases h : mu = lam
    · subst h
      rw [countSemistandard, if_pos rfl, hnil]
      refine ⟨fun ⟨hk, hkn⟩ => (hself _ key hk hkn).symm, fun hk => ?_⟩
      rw [if_neg]
      rintro rfl
      exact hk ⟨⟨by simp, by simp⟩, by simp⟩
    · rw [countSemistandard, if_neg h]
      by_cases hc : contains mu lam = true
      swap
      · rw [if_neg hc]
        simp only [Dict.getD_empty, implies_true, and_true]
        intro _
        rw [tabCount, semistandard, if_neg h, if_neg hc]; simp
      rw [if_pos hc]
      obtain ⟨_, hnd, hrec, _⟩ := horizontalStrips_spec hm hl hc
      have hnd' : (horizontalStrips mu lam).Nodup := hnd.of_map
      have hfold := foldl_getD (horizontalStrips mu lam) (fun ans s =>
        (countSemistandard sv lam n s.1).items.foldl (fun ans pc =>
          countLoop (n + 1) s.2.1.length s.2.2.length pc.1 pc.2
            (List.range (if sv then s.2.2.length + 1 else 1)) ans) ans) key
        (fun s => ((countSemistandard sv lam n s.1).items.map (fun pc =>
          ∑ i ∈ Finset.range (cornerBound sv s), contrib n s.2.1.length s.2.2.length pc.1 pc.2 key i)).sum)
        (by
          intro s _ ans
          rw [foldl_getD _ _ key (fun pc => ∑ i ∈ Finset.range (cornerBound sv s),
            contrib n s.2.1.length s.2.2.length pc.1 pc.2 key i)]
          intro pc _ ans
          rw [List.range_eq_range', countLoop_getD]
          simp only [Nat.zero_add]
          rfl) Dict.empty
      rw [hfold, Dict.getD_empty, zero_add, ← List.sum_toFinset _ hnd']
      have hrow : ∀ s ∈ (horizontalStrips mu lam).toFinset,
          ((countSemistandard sv lam n s.1).items.map (fun pc =>
            ∑ i ∈ Finset.range (cornerBound sv s), contrib n s.2.1.length s.2.2.length pc.1 pc.2 key i)).sum =
          if IsPartition key ∧ key.length ≤ n + 1 then
            ∑ i ∈ Finset.range (cornerBound sv s),
              if s.2.1.length + i = key.getD n 0 then
                nchoosek s.2.2.length i * tabCount sv lam n s.1 (fun i => key.getD i 0) else 0
          else 0 := by
        intro s hs
        rw [List.mem_toFinset] at hs
        have hr := hrec s hs
        have ihs := ih hr.strip.1
        have hkeys := count_keys sv lam n s.1
        by_cases hkn : key.length ≤ n
        · -- the letter n + 1 does not occur
          have hd0 : key.getD n 0 = 0 := List.getD_eq_default _ _ hkn
          have e1 : (countSemistandard sv lam n s.1).items.map (fun pc =>
              ∑ i ∈ Finset.range (cornerBound sv s), contrib n s.2.1.length s.2.2.length pc.1 pc.2 key i) =
            (countSemistandard sv lam n s.1).items.map (fun pc => if pc.1 = key then
              (fun c => ∑ i ∈ Finset.range (cornerBound sv s), if s.2.1.length + i = 0 then c else 0) pc.2 else 0) := by
            apply List.map_congr_left
            intro pc hpc
            have hlen := hkeys _ (Dict.mem_keys_of_items hpc)
            by_cases hp : pc.1 = key
            · simp only [hp, if_true]
              apply Finset.sum_congr rfl
              intro i _
              rw [contrib]
              split
              · simp
              · split
                · rfl
                · rw [if_neg]
                  intro he
                  have := congrArg List.length he
                  simp at this
            · simp only [hp, if_false]
              apply Finset.sum_eq_zero
              intro i _
              rw [contrib]
              split
              · simp [hp]
              · split
                · rfl
                · rename_i h1 h2
                  rw [if_neg]
                  intro he
                  have := congrArg List.length he
                  simp at this
                  push Not at h2
                  omega
          rw [e1, sum_items_eq _ _ (fun c => ∑ i ∈ Finset.range (cornerBound sv s),
            if s.2.1.length + i = 0 then c else 0) (by simp)]
          by_cases hkp : IsPartition key
          · rw [if_pos ⟨hkp, by omega⟩, (ihs key).1 ⟨hkp, hkn⟩]
            apply Finset.sum_congr rfl
            intro i _
            rw [hd0]
            split
            · rename_i h0
              have : i = 0 := by omega
              subst this
              rw [nchoosek_natCast]; simp
            · rfl
          · rw [if_neg (fun h => hkp h.1), (ihs key).2 (fun h => hkp h.1)]
            simp
        · by_cases hkn1 : key.length = n + 1
          · -- key = q ++ [m]
            obtain ⟨q, m, rfl⟩ : ∃ q m, key = q ++ [m] := by
              rcases List.eq_nil_or_concat key with rfl | ⟨t, a, rfl⟩
              · simp at hkn1
              · exact ⟨t, a, by simp⟩
            have hqn : q.length = n := by simpa using hkn1
            have hm' : (q ++ [m]).getD n 0 = m := by
              rw [List.getD_append_right _ _ _ _ (by omega)]
              simp [hqn, List.getD_cons_zero]
            have e1 : (countSemistandard sv lam n s.1).items.map (fun pc =>
                ∑ i ∈ Finset.range (cornerBound sv s),
                  contrib n s.2.1.length s.2.2.length pc.1 pc.2 (q ++ [m]) i) =
              (countSemistandard sv lam n s.1).items.map (fun pc => if pc.1 = q then
                (fun c => ∑ i ∈ Finset.range (cornerBound sv s),
                  if 0 < m ∧ (q ≠ [] → m ≤ q.getLastD 0) ∧ s.2.1.length + i = m then
                    c * nchoosek s.2.2.length i else 0) pc.2 else 0) := by
              apply List.map_congr_left
              intro pc hpc
              have hlen := hkeys _ (Dict.mem_keys_of_items hpc)
              by_cases hp : pc.1 = q
              · simp only [hp, if_true]
                apply Finset.sum_congr rfl
                intro i _
                rw [contrib]
                split
                · rename_i h0
                  rw [if_neg (by
                    intro he
                    have := congrArg List.length he
                    simp at this), if_neg (by omega)]
                · rename_i h0
                  split
                  · rename_i h1
                    rw [if_neg]
                    rintro ⟨h2, h3, h4⟩
                    rcases h1 with h1 | ⟨h1, h5⟩
                    · omega
                    · have := h3 h1; omega
                  · rename_i h1
                    push Not at h1
                    by_cases he : s.2.1.length + i = m
                    · rw [if_pos (by rw [he]), if_pos]
                      refine ⟨by omega, fun hq => ?_, he⟩
                      have := h1.2 hq
                      omega
                    · rw [if_neg (by simpa using he), if_neg (fun h => he h.2.2)]
              · simp only [hp, if_false]
                apply Finset.sum_eq_zero
                intro i _
                rw [contrib]
                split
                · rw [if_neg]
                  intro he
                  rw [he] at hlen
                  simp at hlen
                  omega
                · split
                  · rfl
                  · rw [if_neg]
                    intro he
                    apply hp
                    exact (List.append_inj' he (by simp)).1
            rw [e1, sum_items_eq _ _ (fun c => ∑ i ∈ Finset.range (cornerBound sv s),
                  if 0 < m ∧ (q ≠ [] → m ≤ q.getLastD 0) ∧ s.2.1.length + i = m then
                    c * nchoosek s.2.2.length i else 0) (by simp)]
            by_cases hkp : IsPartition (q ++ [m])
            · rw [if_pos ⟨hkp, by omega⟩]
              obtain ⟨hq, h2, h3⟩ := isPartition_append.1 hkp
              rw [(ihs q).1 ⟨hq, by omega⟩]
              have e2 : tabCount sv lam n s.1 (fun i => (q ++ [m]).getD i 0) =
                  tabCount sv lam n s.1 (fun i => q.getD i 0) := by
                rw [tabCount_eq_sum, tabCount_eq_sum]
                have : (fun i => if i < n then (q ++ [m]).getD i 0 else 0) =
                    (fun i => if i < n then q.getD i 0 else 0) := by
                  funext i
                  split
                  · rw [List.getD_append _ _ _ _ (by omega)]
                  · rfl
                rw [this]
              rw [e2, hm']
              apply Finset.sum_congr rfl
              intro i _
              by_cases he : s.2.1.length + i = m
              · rw [if_pos ⟨h2, h3, he⟩, if_pos he]; ring
              · rw [if_neg (fun h => he h.2.2), if_neg he]
            · rw [if_neg (fun h => hkp h.1)]
              by_cases hq : IsPartition q
              · apply Finset.sum_eq_zero
                intro i _
                rw [if_neg]
                rintro ⟨h2, h3, _⟩
                exact hkp (isPartition_append.2 ⟨hq, h2, h3⟩)
              · rw [(ihs q).2 (fun h => hq h.1)]
                simp
          · rw [if_neg (fun h => by omega)]
            have : ∀ pc ∈ (countSemistandard sv lam n s.1).items, ∑ i ∈ Finset.range (cornerBound sv s),
                contrib n s.2.1.length s.2.2.length pc.1 pc.2 key i = 0 := by
              intro pc hpc
              have hlen := hkeys _ (Dict.mem_keys_of_items hpc)
              apply Finset.sum_eq_zero
              intro i _
              rw [contrib]
              split
              · rw [if_neg]
                intro he; rw [he] at hlen; omega
              · split
                · rfl
                · rw [if_neg]
                  intro he
                  have := congrArg List.length he
                  simp at this
                  omega
            rw [List.map_congr_left this]
            simp
      rw [Finset.sum_congr rfl hrow]
      constructor
      · intro hk
        simp only [hk, and_self, if_true]
        rw [tabCount_succ hl n hm]
      · intro hk
        simp only [hk, if_false, Finset.sum_const_zero]
end Verif.Tableaux
