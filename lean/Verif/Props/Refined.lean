import Verif.Model.Refined
import Verif.Props.MarkedDual
import Verif.Props.Descents

/-!
# C124: the refined dual stable Grothendieck functions
-/

attribute [-simp] List.getD_eq_getElem?_getD

namespace Verif.Symm

open Tableaux Verif.Part Partition

/-- `d` lists the absolute values in the boxes `(1, 1), (2, 2), ...` up to the first missing box. -/
def IsDiagonal (T : Tab) (d : List Nat) : Prop :=
  (∀ m < d.length, ∃ v, T.get? (m + 1, m + 1) = some [v] ∧ d.getD m 0 = v.natAbs) ∧ T.get? (d.length + 1, d.length + 1) = none

theorem isDiagonal_unique {T : Tab} {d d' : List Nat} (h : IsDiagonal T d) (h' : IsDiagonal T d') : d = d' := by
  have key : ∀ {d d' : List Nat}, IsDiagonal T d → IsDiagonal T d' → ¬ d.length < d'.length := by
    intro d d' h h' hlt
    obtain ⟨v, hv, _⟩ := h'.1 _ hlt
    rw [h.2] at hv
    cases hv
  have hl : d.length = d'.length := by
    have := key h h'
    have := key h' h
    omega
  refine List.ext_getElem hl (fun i h1 h2 => ?_)
  obtain ⟨v, hv, hd⟩ := h.1 i h1
  obtain ⟨v', hv', hd'⟩ := h'.1 i h2
  rw [hv, Option.some.injEq, List.cons.injEq] at hv'
  rw [List.getD_eq_getElem _ _ h1] at hd
  rw [List.getD_eq_getElem _ _ h2] at hd'
  rw [hd, hd', hv'.1]

theorem diagFrom_spec {T : Tab} (hs : ∀ b s, T.get? b = some s → ∃ v, s = [v]) (fuel : Nat) : ∀ i, T.maxRow < i + fuel →
    ∃ d, diagFrom T fuel i = some d ∧ (∀ m < d.length, ∃ v, T.get? (i + m, i + m) = some [v] ∧ d.getD m 0 = v.natAbs) ∧
      T.get? (i + d.length, i + d.length) = none := by
  induction fuel with
  | zero =>
    intro i hi
    refine ⟨[], rfl, by simp, ?_⟩
    cases hg : T.get? (i + ([] : List Nat).length, i + ([] : List Nat).length) with
    | none => rfl
    | some s =>
      have := Tab.le_maxRow (Tab.has_iff.2 ⟨s, hg⟩)
      simp at this
      omega
  | succ fuel ih =>
    intro i hi
    rw [diagFrom]
    cases hg : T.get? (i, i) with
    | none => exact ⟨[], rfl, by simp, by simpa using hg⟩
    | some s =>
      obtain ⟨v, rfl⟩ := hs _ _ hg
      obtain ⟨d, h1, h2, h3⟩ := ih (i + 1) (by omega)
      refine ⟨v.natAbs :: d, by simp only; rw [h1]; rfl, fun m hm => ?_, ?_⟩
      · cases m with
        | zero => exact ⟨v, hg, rfl⟩
        | succ m =>
          obtain ⟨w, hw, hd⟩ := h2 m (by simpa using hm)
          refine ⟨w, ?_, ?_⟩
          · rw [show i + (m + 1) = i + 1 + m by omega]; exact hw
          · rw [List.getD_cons_succ]; exact hd
      · rw [List.length_cons, show i + (d.length + 1) = i + 1 + d.length by omega]; exact h3

theorem diagVector_spec {T : Tab} (hs : ∀ b s, T.get? b = some s → ∃ v, s = [v]) : ∃ d, diagVector T = some d ∧ IsDiagonal T d := by
  obtain ⟨d, h1, h2, h3⟩ := diagFrom_spec hs T.maxRow 1 (by omega)
  refine ⟨d, h1, fun m hm => ?_, ?_⟩
  · rw [Nat.add_comm m 1]; exact h2 m hm
  · rw [Nat.add_comm d.length 1]; exact h3

theorem groupDiag_fold {D : Tab → List Nat} (tabs : List Tab) (h : ∀ T ∈ tabs, diagVector T = some (D T)) :
    ∀ d : Dict (List Nat) (List Tab), ∃ d', tabs.foldlM (fun (d : Dict (List Nat) (List Tab)) T =>
      (diagVector T).map (fun key => d.set key (d.getD key [] ++ [T]))) d = some d' ∧
      (∀ key, d'.getD key [] = d.getD key [] ++ tabs.filter (fun T => decide (D T = key))) ∧
      ∀ key, key ∈ d'.keys ↔ key ∈ d.keys ∨ ∃ T ∈ tabs, D T = key := by
  induction tabs with
  | nil => intro d; exact ⟨d, rfl, by simp, by simp⟩
  | cons T t ih =>
    intro d
    obtain ⟨d', h1, h2, h3⟩ := ih (fun T hT => h T (List.mem_cons_of_mem _ hT)) (d.set (D T) (d.getD (D T) [] ++ [T]))
    refine ⟨d', ?_, fun key => ?_, fun key => ?_⟩
    · rw [List.foldlM_cons, h T (List.mem_cons_self ..)]
      exact h1
    · rw [h2, Dict.getD_set, List.filter_cons]
      by_cases hk : D T = key
      · rw [if_pos hk, if_pos (by simpa using hk), hk, List.append_assoc]; rfl
      · rw [if_neg hk, if_neg (by simpa using hk)]
    · rw [h3, Dict.mem_keys, Dict.mem_keys]
      simp only [Dict.get?_set, List.mem_cons]
      by_cases hk : D T = key
      · simp [hk]
      · simp [hk]

theorem fold_items {F : List Tab → Option SymPoly} {t : List Tab → SymPoly} (l : List (List Nat × List Tab))
    (hF : ∀ p ∈ l, F p.2 = some (t p.2)) : ∀ e : Dict (List Nat) SymPoly, (e.keys ++ l.map Prod.fst).Nodup →
    ∃ e', l.foldlM (fun (e : Dict (List Nat) SymPoly) p => (F p.2).map (fun f => e.set p.1 f)) e = some e' ∧
      e'.items = e.items ++ l.map (fun p => (p.1, t p.2)) := by
  induction l with
  | nil => intro e _; exact ⟨e, rfl, by simp⟩
  | cons p l ih =>
    intro e hnd
    have hp : p.1 ∉ e.keys := fun hm => List.disjoint_of_nodup_append hnd hm (List.mem_cons_self ..)
    have hi : (e.set p.1 (t p.2)).items = e.items ++ [(p.1, t p.2)] := Tab.insertItem_absent _ _ _ hp
    obtain ⟨e', h1, h2⟩ := ih (fun q hq => hF q (List.mem_cons_of_mem _ hq)) (e.set p.1 (t p.2)) (by
      have : (e.set p.1 (t p.2)).keys = e.keys ++ [p.1] := by unfold Dict.keys; rw [hi, List.map_append]; rfl
      rw [this]
      simpa [List.append_assoc] using hnd)
    refine ⟨e', ?_, ?_⟩
    · rw [List.foldlM_cons, hF p (List.mem_cons_self ..)]
      exact h1
    · rw [h2, hi, List.append_assoc]; rfl

open scoped Classical in
theorem slowVectorizeFree_spec {tabs : List Tab} {S : Finset Tab} (h : ListsSet tabs S) {n : Nat} {W : Tab → List Nat}
    (hW : ∀ T ∈ S, (W T).length = n) (signs : Option PolyVal) :
    ∃ f, slowVectorizeFree n W tabs signs = some f ∧ ∀ k, f.get k =
      if IsPartition k ∧ k.length ≤ n then
        ((((S.filter (fun T => ∀ i < n, (W T).getD i 0 = k.getD i 0)).card : Nat) : Int) : PolyVal) * signFactor signs k.sum
      else 0 := by
  obtain ⟨d, hd⟩ : ∃ d, slowDictionary W tabs = d := ⟨_, rfl⟩
  obtain ⟨e, e1, e2, e3⟩ := slow_fold (n := n) (fun ac => (ac.2 : PolyVal) * slowSign signs ac.1) (d.items.filter (fun ac => isPartition (ac.1.map (fun a : Nat => (a : Int)))))
    (d.nodup.sublist (List.filter_sublist.map _)) (fun t ht => by
      rw [List.mem_filter, isPartition_cast] at ht
      obtain ⟨T, hT, hw⟩ := slowDictionary_keys h W t.1 (by rw [hd]; exact Dict.mem_keys_of_items ht.1)
      exact ⟨by rw [← hw]; exact hW T hT, ht.2⟩) Dict.empty (by simp [Dict.keys, Dict.empty])
  refine ⟨mkSym n e, ?_, fun k => ?_⟩
  · rw [slowVectorizeFree, hd, e1]
    rfl
  · refine (Vec.get_mk' _ _ _).trans ?_
    by_cases hk : IsPartition k ∧ k.length ≤ n
    swap
    · rw [if_neg hk]
      exact Dict.getD_of_notMem (fun hc => hk (e2 k hc))
    rw [if_pos hk, e3 k hk.1 hk.2, Dict.getD_empty]
    have hcount : S.filter (fun T => ∀ i < n, (W T).getD i 0 = k.getD i 0) =
        S.filter (fun T => W T = k ++ List.replicate (n - k.length) 0) :=
      Finset.filter_congr (fun T hT => (pad_iff (hW T hT) hk.2).symm)
    rw [hcount]
    have hg := slowDictionary_getD h W (k ++ List.replicate (n - k.length) 0)
    rw [hd] at hg
    have hsf : ∀ u : List Nat, slowSign signs u = signFactor signs u.sum := fun u => by
      rw [slowSign.eq_def, signFactor.eq_def]
      cases signs <;> rfl
    cases hf : (d.items.filter (fun ac => isPartition (ac.1.map (fun a : Nat => (a : Int))))).find?
        (fun t => decide (t.1 = k ++ List.replicate (n - k.length) 0)) with
    | some t =>
      have h1 := List.mem_of_find?_eq_some hf
      have h2 := List.find?_some hf
      rw [decide_eq_true_eq] at h2
      rw [← h2, Dict.getD_of_mem (List.mem_filter.1 h1).1] at hg
      simp only
      rw [hg, hsf, h2, List.sum_append, List.sum_replicate]
      simp
    | none =>
      rw [List.find?_eq_none] at hf
      have h0 : d.getD (k ++ List.replicate (n - k.length) 0) 0 = 0 := by
        refine Dict.getD_of_notMem (fun hc => ?_)
        rw [Dict.keys, List.mem_map] at hc
        obtain ⟨t, ht, hte⟩ := hc
        refine hf t (List.mem_filter.2 ⟨ht, ?_⟩) (by simpa using hte)
        rw [isPartition_cast, hte]
        rw [List.pairwise_append]
        refine ⟨hk.1.1, by simp, fun a _ b hb => ?_⟩
        rw [List.mem_replicate] at hb
        omega
      rw [h0] at hg
      rw [← hg]
      simp

/-- The weight of `T` is `k`, filled up by zeros. -/
def HasWeight (n : Nat) (k : List Nat) (T : Tab) : Prop := ∀ i < n, ((markedRppWeight n T).getD []).getD i 0 = k.getD i 0

open scoped Classical in
/-- The number of tableaux of weight `k` with the diagonal `δ`. -/
noncomputable def diagCount (n : Nat) (S : Finset Tab) (δ k : List Nat) : Nat :=
  (S.filter (fun T => IsDiagonal T δ ∧ HasWeight n k T)).card

/-- The coefficient of the monomial symmetric function of `k` in the value at `δ`. -/
def refinedCoeff (r : Dict (List Nat) SymPoly) (δ k : List Nat) : PolyVal :=
  match r.get? δ with
  | some f => f.get k
  | none => 0

open scoped Classical in
theorem refinedTerm_spec {dn : Bool} {n : Nat} {mu nu : List Nat} (hm : IsStrict mu) (hn : IsStrict nu) {ts : List Tab}
    (hnd : ts.Nodup) (hts : ∀ T ∈ ts, T ∈ mrppGen dn nu n mu) :
    ∃ f, refinedTerm n mu nu ts = some f ∧ ∀ k, f.get k = if IsPartition k ∧ k.length ≤ n then
      (((ts.toFinset.filter (HasWeight n k)).card : Nat) : PolyVal) * (-PolyVal.mk Poly.beta) ^ (mu.sum - nu.sum - k.sum) else 0 := by
  have hw : ∀ T ∈ ts, markedRppWeight n T = some (wtL n mrppWt T) := fun T hT =>
    markedRppWeight_eq ((isTab_mrppGen hn n hm).1 (hts T hT))
  obtain ⟨b, hb1, hb2⟩ := pow_beta (-1)
  obtain ⟨c, hc1, hc2⟩ := pow_neg_beta ((mu.sum : Int) - nu.sum)
  obtain ⟨f, h1, h2⟩ := slowVectorizeFree_spec (tabs := ts) (S := ts.toFinset) ⟨hnd, fun T => List.mem_toFinset.symm⟩ (n := n)
    (W := fun T => (markedRppWeight n T).getD []) (fun T hT => by
      rw [List.mem_toFinset] at hT
      rw [hw T hT, Option.getD_some, length_wtL]) (some (PolyVal.mk (Poly.neg b)))
  refine ⟨Vec.smul f (PolyVal.mk c), ?_, fun k => ?_⟩
  · rw [refinedTerm, hb1]
    simp only
    rw [if_pos (by
      rw [List.all_eq_true]
      intro T hT
      rw [hw T hT]
      rfl), h1]
    simp only
    rw [hc1]
  · rw [Vec.get_smul, h2]
    by_cases hk : IsPartition k ∧ k.length ≤ n
    swap
    · rw [if_neg hk, if_neg hk, zero_mul]
    rw [if_pos hk, if_pos hk]
    have hset : ts.toFinset.filter (fun T => ∀ i < n, ((markedRppWeight n T).getD []).getD i 0 = k.getD i 0) =
        ts.toFinset.filter (HasWeight n k) := by
      ext T
      rw [Finset.mem_filter, Finset.mem_filter]
      rfl
    rw [hset]
    by_cases h0 : (ts.toFinset.filter (HasWeight n k)).card = 0
    · rw [h0]; simp
    · obtain ⟨T, hT⟩ := Finset.card_ne_zero.1 h0
      rw [Finset.mem_filter, List.mem_toFinset] at hT
      have hle := sum_mrppWt_le ((isTab_mrppGen hn n hm).1 (hts T hT.1))
      have hT2 : ∀ i < n, mrppWt T i = k.getD i 0 := by
        intro i hi
        have := hT.2 i hi
        rw [hw T hT.1, Option.getD_some, getD_wtL _ _ _ hi] at this
        exact this
      rw [Finset.sum_congr rfl (fun i hi => hT2 i (Finset.mem_range.1 hi)), sum_range_length hk.2] at hle
      rw [mul_assoc]
      congr 1
      apply PolyVal.den_injective
      rw [PolyVal.den_mul, PolyVal.den_mk, PolyVal.den_pow, PolyVal.den_neg, PolyVal.den_mk, den_beta,
          signFactor, if_neg (neg_inv_beta_ne_zero hb2), PolyVal.den_pow, PolyVal.den_mk, Poly.den_neg, hb2,
          hc2 (by omega), neg_inv_pow (by omega)]
      congr 1
      omega

theorem exists_diagonals (dn : Bool) (n : Nat) {mu nu : List Nat} (hm : IsStrict mu) (hn : IsStrict nu) :
    ∃ D : Tab → List Nat, ∀ T ∈ mrppGen dn nu n mu, diagVector T = some (D T) ∧ IsDiagonal T (D T) := by
  obtain ⟨S', hS', hchar⟩ := C62_semistandard_marked_rpp dn n hm hn
  rw [semistandardMarkedRpp_eq n hm, Option.some_inj] at hS'
  subst hS'
  refine ⟨fun T => (diagVector T).getD [], fun T hT => ?_⟩
  obtain ⟨d, h1, h2⟩ := diagVector_spec (T := T) (fun b s hs => by
    obtain ⟨_, f, _, h1, h2⟩ := (hchar T).1 hT
    by_cases hb : b ∈ ShiftedDiagram mu \ ShiftedDiagram nu
    · rw [h1 b hb, Option.some.injEq] at hs
      exact ⟨f b, hs.symm⟩
    · rw [h2 b hb] at hs
      cases hs)
  dsimp only
  rw [h1, Option.getD_some]
  exact ⟨rfl, h2⟩

open scoped Classical in
theorem refined_run (dn : Bool) (n : Nat) {mu nu : List Nat} (hm : IsStrict mu) (hn : IsStrict nu) {tabs : List Tab}
    (ht : ListsSet tabs (mrppGen dn nu n mu)) :
    ∃ r, slowRefinedDual n mu nu tabs = some r ∧
      (∀ δ f, r.get? δ = some f → f.dict.items ≠ [] ∧ ∃ T ∈ mrppGen dn nu n mu, IsDiagonal T δ) ∧
      ∀ δ k, refinedCoeff r δ k = if IsPartition k ∧ k.length ≤ n then
        (diagCount n (mrppGen dn nu n mu) δ k : PolyVal) * (-PolyVal.mk Poly.beta) ^ (mu.sum - nu.sum - k.sum) else 0 := by
  obtain ⟨D, hD⟩ := exists_diagonals dn n hm hn
  have hDiag : ∀ T ∈ mrppGen dn nu n mu, ∀ δ, IsDiagonal T δ ↔ D T = δ := by
    intro T hT δ
    constructor
    · intro h; exact isDiagonal_unique (hD T hT).2 h
    · rintro rfl; exact (hD T hT).2
  obtain ⟨d, g1, g2, g3⟩ := groupDiag_fold (D := D) tabs (fun T hT => (hD T ((ht.2 T).1 hT)).1) Dict.empty
  have hterm : ∀ δ, ∃ f, refinedTerm n mu nu (tabs.filter (fun T => decide (D T = δ))) = some f ∧
      ∀ k, f.get k = if IsPartition k ∧ k.length ≤ n then
        (diagCount n (mrppGen dn nu n mu) δ k : PolyVal) * (-PolyVal.mk Poly.beta) ^ (mu.sum - nu.sum - k.sum) else 0 := by
    intro δ
    obtain ⟨f, h1, h2⟩ := refinedTerm_spec (dn := dn) (n := n) hm hn (ts := tabs.filter (fun T => decide (D T = δ)))
      (ht.1.filter _) (fun T hT => (ht.2 T).1 (List.mem_filter.1 hT).1)
    refine ⟨f, h1, fun k => ?_⟩
    rw [h2]
    have : (tabs.filter (fun T => decide (D T = δ))).toFinset.filter (HasWeight n k) =
        (mrppGen dn nu n mu).filter (fun T => IsDiagonal T δ ∧ HasWeight n k T) := by
      ext T
      rw [Finset.mem_filter, Finset.mem_filter, List.mem_toFinset, List.mem_filter, ht.2, decide_eq_true_eq, and_assoc]
      refine and_congr_right (fun hT => ?_)
      rw [hDiag T hT]
    rw [this]
    rfl
  choose t ht1 ht2 using hterm
  have hval : ∀ p ∈ d.items, p.2 = tabs.filter (fun T => decide (D T = p.1)) := by
    intro p hp
    have := g2 p.1
    rw [Dict.getD_of_mem hp, Dict.getD_empty, List.nil_append] at this
    exact this
  obtain ⟨e, e1, e2⟩ := fold_items (F := refinedTerm n mu nu) (t := fun ts => (refinedTerm n mu nu ts).getD ⟨Dict.empty, none⟩) d.items
    (fun p hp => by rw [hval p hp, ht1]; rfl) Dict.empty (by simpa [Dict.keys, Dict.empty] using d.nodup)
  have hget : ∀ δ, e.get? δ = if δ ∈ d.keys then some (t δ) else none := by
    intro δ
    by_cases hδ : δ ∈ d.keys
    · rw [if_pos hδ, Dict.get?_eq_some, e2]
      obtain ⟨p, hp, rfl⟩ := List.mem_map.1 hδ
      refine List.mem_append_right _ (List.mem_map.2 ⟨p, hp, ?_⟩)
      rw [hval p hp, ht1]
      rfl
    · rw [if_neg hδ, Dict.get?_eq_none]
      unfold Dict.keys
      rw [e2]
      simpa [Dict.empty, Dict.keys] using hδ
  refine ⟨e.filter (fun _ f => decide (f.len ≠ 0)), ?_, ?_, ?_⟩
  · rw [slowRefinedDual, groupDiag, g1, Option.bind_some, e1]
    rfl
  · intro δ f hf
    rw [Dict.get?_filter, hget, Option.filter_eq_some_iff, decide_eq_true_eq] at hf
    refine ⟨fun h => hf.2 (Vec.len_eq_zero.2 h), ?_⟩
    by_cases hδ : δ ∈ d.keys
    · rcases (g3 δ).1 hδ with h | ⟨T, hT, h⟩
      · simp [Dict.keys, Dict.empty] at h
      · exact ⟨T, (ht.2 T).1 hT, (hDiag T ((ht.2 T).1 hT) δ).2 h⟩
    · rw [if_neg hδ] at hf
      cases hf.1
  · intro δ k
    unfold refinedCoeff
    rw [Dict.get?_filter, hget]
    by_cases hδ : δ ∈ d.keys
    · rw [if_pos hδ, ← ht2]
      by_cases hl : (t δ).len = 0
      · rw [Option.filter_some, if_neg (by simpa using hl)]
        simp only
        rw [Vec.get_of_notMem]
        unfold Dict.keys
        rw [Vec.len_eq_zero.1 hl]
        simp
      · rw [Option.filter_some, if_pos (by simpa using hl)]
    · rw [if_neg hδ]
      simp only [Option.filter_none]
      have h0 : diagCount n (mrppGen dn nu n mu) δ k = 0 := by
        unfold diagCount
        rw [Finset.card_eq_zero, Finset.filter_eq_empty_iff]
        rintro T hT ⟨h, _⟩
        exact hδ ((g3 δ).2 (Or.inr ⟨T, (ht.2 T).2 hT, (hDiag T hT δ).1 h⟩))
      rw [h0]
      simp

open scoped Classical in
/-- C124.  The refined functions raise no exception, in whatever order the set `S` of marked reverse plane partitions is traversed.  The
value at `δ` has at the partition `k` the coefficient `(-β)^(|mu| - |nu| - |k|)` times the number of tableaux in `S` of weight `k` with
the diagonal `δ`; only diagonals of tableaux in `S` with a value different from zero occur. -/
theorem C124_refined (dn : Bool) (n : Nat) {mu nu : List Nat} (hm : IsStrict mu) (hn : IsStrict nu) {S : Finset Tab}
    (hS : semistandardMarkedRpp dn nu n mu = some S) {tabs : List Tab} (ht : ListsSet tabs S) :
    ∃ r, slowRefinedDual n mu nu tabs = some r ∧
      (∀ δ f, r.get? δ = some f → f.dict.items ≠ [] ∧ ∃ T ∈ S, IsDiagonal T δ) ∧
      ∀ δ k, refinedCoeff r δ k = if IsPartition k ∧ k.length ≤ n then
        (diagCount n S δ k : PolyVal) * (-PolyVal.mk Poly.beta) ^ (mu.sum - nu.sum - k.sum) else 0 := by
  rw [semistandardMarkedRpp_eq n hm, Option.some_inj] at hS
  subst hS
  exact refined_run dn n hm hn ht

open scoped Classical in
theorem refined_sum (dn : Bool) (n : Nat) {mu nu : List Nat} (hm : IsStrict mu) (hn : IsStrict nu) {tabs : List Tab}
    (ht : ListsSet tabs (mrppGen dn nu n mu)) {r : Dict (List Nat) SymPoly} (hr : slowRefinedDual n mu nu tabs = some r) :
    ∃ g, dualVectorize n mu nu (mrppCount dn nu n mu) = some g ∧ ∀ k, (r.items.map (fun p => p.2.get k)).sum = g.get k := by
  obtain ⟨r', h1, h2, h3⟩ := refined_run dn n hm hn ht
  rw [hr, Option.some.injEq] at h1
  subst h1
  obtain ⟨D, hD⟩ := exists_diagonals dn n hm hn
  obtain ⟨g, g1, _, _, g4, _⟩ := dualVectorize_mrpp dn n hn hm
  refine ⟨g, g1, fun k => ?_⟩
  have e1 : r.items.map (fun p => p.2.get k) = r.keys.map (fun δ => refinedCoeff r δ k) := by
    unfold Dict.keys
    rw [List.map_map]
    refine List.map_congr_left (fun p hp => ?_)
    have hg : r.get? p.1 = some p.2 := Dict.get?_eq_some.2 hp
    rw [Function.comp_apply, refinedCoeff, hg]
  have hnd : r.keys.Nodup := r.nodup
  have hsub : r.keys.toFinset ⊆ (mrppGen dn nu n mu).image D := by
    intro δ hδ
    rw [List.mem_toFinset] at hδ
    obtain ⟨f, hf⟩ := Dict.mem_keys.1 hδ
    obtain ⟨_, T, hT, hd⟩ := h2 δ f hf
    exact Finset.mem_image.2 ⟨T, hT, isDiagonal_unique (hD T hT).2 hd⟩
  rw [e1, ← List.sum_toFinset _ hnd, Finset.sum_subset hsub (fun δ _ hδ => by
    rw [List.mem_toFinset] at hδ
    rw [refinedCoeff, Dict.get?_eq_none.2 hδ]), g4]
  have hc := (sameCounts_mrpp dn n hm hn).count k
  by_cases hk : IsPartition k ∧ k.length ≤ n
  · rw [hc.1 hk, Finset.sum_congr rfl (fun δ _ => (h3 δ k).trans (if_pos hk)), ← Finset.sum_mul]
    congr 1
    have hcard := Finset.card_eq_sum_card_fiberwise (f := D) (s := (mrppGen dn nu n mu).filter (HasWeight n k))
      (t := (mrppGen dn nu n mu).image D) (fun T hT => Finset.mem_coe.2 (Finset.mem_image_of_mem D (Finset.mem_filter.1 hT).1))
    have hset : (mrppGen dn nu n mu).filter (fun T => ∀ i < n, ((markedRppWeight n T).getD []).getD i 0 = k.getD i 0) =
        (mrppGen dn nu n mu).filter (HasWeight n k) := by
      ext T
      rw [Finset.mem_filter, Finset.mem_filter]
      rfl
    rw [hset, hcard]
    push_cast
    refine Finset.sum_congr rfl (fun δ _ => ?_)
    congr 1
    unfold diagCount
    congr 1
    ext T
    rw [Finset.mem_filter, Finset.mem_filter, Finset.mem_filter]
    constructor
    · rintro ⟨hT, h5, h6⟩
      exact ⟨⟨hT, h6⟩, isDiagonal_unique (hD T hT).2 h5⟩
    · rintro ⟨⟨hT, h6⟩, rfl⟩
      exact ⟨hT, (hD T hT).2, h6⟩
  · rw [hc.2 hk, Finset.sum_eq_zero (fun δ _ => (h3 δ k).trans (if_neg hk))]
    simp

/-- C124.  The values of `_slow_refined_dual_stable_grothendieck_p` add up to `dual_stable_grothendieck_p`. -/
theorem C124_sum_p (n : Nat) {mu nu : List Nat} (hm : IsStrict mu) (hn : IsStrict nu) {S : Finset Tab}
    (hS : semistandardMarkedRpp false nu n mu = some S) {tabs : List Tab} (ht : ListsSet tabs S) {r : Dict (List Nat) SymPoly}
    (hr : slowRefinedDual n mu nu tabs = some r) :
    ∃ g, dualStableGrothendieckP n mu nu = some g ∧ ∀ k, (r.items.map (fun p => p.2.get k)).sum = g.get k := by
  rw [semistandardMarkedRpp_eq n hm, Option.some_inj] at hS
  subst hS
  rw [dualStableGrothendieckP, countSemistandardMarkedRpp_eq n hm]
  exact refined_sum false n hm hn ht hr

/-- C124.  The same for `_slow_refined_dual_stable_grothendieck_q` and `dual_stable_grothendieck_q`. -/
theorem C124_sum_q (n : Nat) {mu nu : List Nat} (hm : IsStrict mu) (hn : IsStrict nu) {S : Finset Tab}
    (hS : semistandardMarkedRpp true nu n mu = some S) {tabs : List Tab} (ht : ListsSet tabs S) {r : Dict (List Nat) SymPoly}
    (hr : slowRefinedDual n mu nu tabs = some r) :
    ∃ g, dualStableGrothendieckQ n mu nu = some g ∧ ∀ k, (r.items.map (fun p => p.2.get k)).sum = g.get k := by
  rw [semistandardMarkedRpp_eq n hm, Option.some_inj] at hS
  subst hS
  rw [dualStableGrothendieckQ, countSemistandardMarkedRpp_eq n hm]
  exact refined_sum true n hm hn ht hr

/-- The marked reverse plane partitions of shape (2, 1) with letters up to 2 whose diagonal is primed. -/
def exampleRefined : List Tab :=
  [⟨[((1, 1), [-1]), ((1, 2), [-1]), ((2, 2), [-1])], by decide +kernel⟩, ⟨[((1, 1), [-1]), ((1, 2), [-1]), ((2, 2), [-2])], by decide +kernel⟩,
    ⟨[((1, 1), [-1]), ((1, 2), [1]), ((2, 2), [-2])], by decide +kernel⟩, ⟨[((1, 1), [-1]), ((1, 2), [-2]), ((2, 2), [-2])], by decide +kernel⟩,
    ⟨[((1, 1), [-2]), ((1, 2), [-2]), ((2, 2), [-2])], by decide +kernel⟩]

example : IsStrict [2, 1] ∧ ∃ S, semistandardMarkedRpp false [] 2 [2, 1] = some S ∧ ListsSet exampleRefined S := by
  refine ⟨⟨by decide, by decide⟩, exampleRefined.toFinset, by decide +kernel, by decide +kernel, fun T => List.mem_toFinset.symm⟩

/-- The tableau with the diagonal (2, 2) has the weight (0, 2), so that this diagonal has the value zero. -/
example : (slowRefinedDual 2 [2, 1] [] exampleRefined).map (fun r => r.items.map (fun p => (p.1, [p.2.get [2, 1], p.2.get [2], p.2.get [1, 1]]))) =
    some [([1, 1], [0, -PolyVal.mk Poly.beta, 0]), ([1, 2], [1, 0, -PolyVal.mk Poly.beta])] := by decide +kernel

end Verif.Symm
