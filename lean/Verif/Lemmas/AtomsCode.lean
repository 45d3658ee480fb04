import Verif.Lemmas.AtomsReach

/-! # Atoms of involutions: the functions of the model -/

namespace Verif.Perm
open Verif.PermSpec
attribute [-simp] List.getD_eq_getElem?_getD
attribute [local irreducible] mul s inverse identity len mod act demazure SPerm.call sFun invStep

variable {y : SPerm}

/-- A list of successful calls. -/
theorem mapM_except {α β : Type} {f : α → Except Raised β} {l : List α} (h : ∀ i ∈ l, ∃ r, f i = .ok r) :
    ∃ rs, l.mapM f = .ok rs ∧ ∀ r, r ∈ rs ↔ ∃ i ∈ l, f i = .ok r := by
  induction l with
  | nil => exact ⟨[], rfl, by simp⟩
  | cons a l ih =>
    obtain ⟨r, hr⟩ := h a (by simp)
    obtain ⟨rs, h1, h2⟩ := ih (fun i hi => h i (by simp [hi]))
    refine ⟨r :: rs, ?_, fun t => ?_⟩
    · rw [List.mapM_cons, hr, h1]; rfl
    · rw [List.mem_cons, h2]
      constructor
      · rintro (rfl | ⟨i, hi, e⟩)
        · exact ⟨a, by simp, hr⟩
        · exact ⟨i, by simp [hi], e⟩
      · rintro ⟨i, hi, e⟩
        rcases List.mem_cons.1 hi with rfl | hi
        · rw [hr] at e; cases e; exact .inl rfl
        · exact .inr ⟨i, hi, e⟩

theorem lineInvolution_spec {l : List Int} {u : SPerm} (h : construct l = some u) :
    ∃ r, lineInvolution l = .ok r ∧ ∀ z, r = some z ↔ Atom (inverse u) z := by
  refine ⟨_, by rw [lineInvolution, h], fun z => ?_⟩
  have hr := (getReducedWord_reduced u).reverse
  exact ⟨fun hz => ⟨_, hr.1, hz⟩, fun hz => atom_any hz hr⟩

theorem lineInvolution_iff {l : List Int} {u : SPerm} (h : construct l = some u) (z : SPerm) :
    lineInvolution l = .ok (some z) ↔ AtomLine z l := by
  obtain ⟨r, h1, h2⟩ := lineInvolution_spec h
  rw [h1, Except.ok.injEq, h2]
  constructor
  · exact fun hz => ⟨u, h, hz⟩
  · rintro ⟨v, hv, hz⟩
    rw [h] at hv; cases hv; exact hz

/-- A list with two given neighbours. -/
theorem split_two {l : List Int} {i : Nat} (hi : i + 1 < l.length) :
    l = l.take i ++ [l.getD i 0, l.getD (i + 1) 0] ++ l.drop (i + 2) := by
  rw [List.getD_eq_getElem _ _ (by omega), List.getD_eq_getElem _ _ (by omega)]
  have d1 := List.drop_eq_getElem_cons (l := l) (i := i) (by omega)
  have d2 := List.drop_eq_getElem_cons (l := l) (i := i + 1) (by omega)
  rw [d2] at d1
  have := List.take_append_drop i l
  rw [d1] at this
  simpa using this.symm

theorem split_three {l : List Int} {i : Nat} (hi : i + 2 < l.length) :
    l = l.take i ++ [l.getD i 0, l.getD (i + 1) 0, l.getD (i + 2) 0] ++ l.drop (i + 3) := by
  rw [List.getD_eq_getElem _ _ (by omega), List.getD_eq_getElem _ _ (by omega), List.getD_eq_getElem _ _ (by omega)]
  have d1 := List.drop_eq_getElem_cons (l := l) (i := i) (by omega)
  have d2 := List.drop_eq_getElem_cons (l := l) (i := i + 1) (by omega)
  have d3 := List.drop_eq_getElem_cons (l := l) (i := i + 2) (by omega)
  rw [d2, d3] at d1
  have := List.take_append_drop i l
  rw [d1] at this
  simpa using this.symm

theorem getD_mid (A B : List Int) (v : Int) : (A ++ v :: B).getD A.length 0 = v := by
  rw [List.getD_eq_getElem _ _ (by simp)]; simp

theorem mem_nextTriples {l l' : List Int} : l' ∈ nextTriples l ↔
    ∃ A B a b c, l = A ++ [c, a, b] ++ B ∧ l' = A ++ [b, c, a] ++ B ∧ a < b ∧ b < c := by
  rw [nextTriples, List.mem_filterMap]
  constructor
  · rintro ⟨i, hi, h⟩
    rw [List.mem_range] at hi
    simp only at h
    split at h
    · rename_i hc
      cases h
      exact ⟨_, _, _, _, _, split_three (by omega), rfl, hc⟩
    · cases h
  · rintro ⟨A, B, a, b, c, rfl, rfl, h⟩
    refine ⟨A.length, List.mem_range.2 (by simp; omega), ?_⟩
    have e1 : (A ++ [c, a, b] ++ B).getD A.length 0 = c := by
      have := getD_mid A (a :: b :: B) c; simpa using this
    have e2 : (A ++ [c, a, b] ++ B).getD (A.length + 1) 0 = a := by
      have := getD_mid (A ++ [c]) (b :: B) a; simpa using this
    have e3 : (A ++ [c, a, b] ++ B).getD (A.length + 2) 0 = b := by
      have := getD_mid (A ++ [c, a]) B b; simpa using this
    simp only [e1, e2, e3]
    rw [if_pos h]
    simp

theorem min_prefix {A : List Int} {b : Int} (hb : 0 < b) :
    some b = ((A ++ [-b]).map (fun v => (v.natAbs : Int))).min? ↔ ∀ v ∈ A, b ≤ v.natAbs := by
  rw [eq_comm, List.min?_eq_some_iff]
  constructor
  · rintro ⟨-, h⟩ v hv
    exact h _ (List.mem_map.2 ⟨v, by simp [hv], rfl⟩)
  · intro h
    refine ⟨List.mem_map.2 ⟨-b, by simp, by omega⟩, fun w hw => ?_⟩
    obtain ⟨v, hv, rfl⟩ := List.mem_map.1 hw
    rcases List.mem_append.1 hv with hv | hv
    · exact h v hv
    · rw [List.mem_singleton] at hv; omega

theorem isOneline_pair {A B : List Int} {a b : Int} (h : isOneline (A ++ [-b, -a] ++ B) = true) : isOneline (A ++ [a, -b] ++ B) = true := by
  refine isOneline_perm ?_ h
  simp only [List.map_append, List.map_cons, List.map_nil, Int.natAbs_neg]
  exact ((List.Perm.swap _ _ []).append_left _).append_right _

theorem rank_identity : identity.rank = 0 := by with_unfolding_all rfl

theorem nextPair_spec {l : List Int} (hl : AtomLine y l) (hr : l.length = y.rank) {i : Nat} (hi : i + 1 < l.length) :
    ∃ L, nextPair l y i = .ok L ∧ ∀ l', l' ∈ L ↔ ∃ A B a b, A.length = i ∧ l = A ++ [-b, -a] ++ B ∧ l' = A ++ [a, -b] ++ B ∧ 0 < a ∧ a < b ∧
      (∀ v ∈ A, b ≤ v.natAbs) ∧ AtomLine y l' := by
  have hs := split_two hi
  obtain ⟨b, hb⟩ : ∃ b, b = -l.getD i 0 := ⟨_, rfl⟩
  obtain ⟨a, ha⟩ : ∃ a, a = -l.getD (i + 1) 0 := ⟨_, rfl⟩
  rw [show l.getD i 0 = -b by omega, show l.getD (i + 1) 0 = -a by omega] at hs
  have hA : (l.take i).length = i := by rw [List.length_take]; omega
  have htake : l.take (i + 1) = l.take i ++ [-b] := by
    rw [List.take_add_one, List.getElem?_eq_getElem (by omega), hb, List.getD_eq_getElem _ _ (by omega)]; simp
  have huniq : ∀ A B a' b', A.length = i → l = A ++ [-b', -a'] ++ B → A = l.take i ∧ B = l.drop (i + 2) ∧ a' = a ∧ b' = b := by
    intro A B a' b' h1 h2
    have h3 : A ++ ([-b', -a'] ++ B) = l.take i ++ ([-b, -a] ++ l.drop (i + 2)) := by
      rw [← List.append_assoc, ← List.append_assoc, ← hs, ← h2]
    obtain ⟨h4, h5⟩ := List.append_inj h3 (by rw [h1, hA])
    obtain ⟨h6, h7⟩ := List.append_inj h5 rfl
    simp only [List.cons.injEq, and_true] at h6
    exact ⟨h4, h7, by omega, by omega⟩
  unfold nextPair
  simp only [← hb, ← ha]
  by_cases hc : 0 < a ∧ a < b ∧ some b = ((l.take (i + 1)).map (fun v => (v.natAbs : Int))).min?
  · rw [if_pos hc]
    obtain ⟨c1, c2, c3⟩ := hc
    rw [htake, min_prefix (by omega)] at c3
    have ho : isOneline (l.take i ++ [a, -b] ++ l.drop (i + 2)) = true := by
      obtain ⟨u, hu, -⟩ := hl
      have := isOneline_of_construct hu
      rw [hs] at this
      exact isOneline_pair this
    obtain ⟨w, hw, -⟩ := construct_spec ho
    obtain ⟨r, h1, h2⟩ := lineInvolution_spec hw
    have h3 := lineInvolution_iff hw
    rw [h1] at h3 ⊢
    have hy0 : len y ≠ 0 := fun h => by
      rw [len_eq_zero.1 h, rank_identity] at hr; omega
    have fwd : ∀ l', l' = l.take i ++ [a, -b] ++ l.drop (i + 2) → AtomLine y l' →
        ∃ A B a b, A.length = i ∧ l = A ++ [-b, -a] ++ B ∧ l' = A ++ [a, -b] ++ B ∧ 0 < a ∧ a < b ∧
          (∀ v ∈ A, b ≤ v.natAbs) ∧ AtomLine y l' := fun l' h4 h5 => ⟨_, _, a, b, hA, hs, h4, c1, c2, c3, h5⟩
    cases hr' : r with
    | none =>
      refine ⟨[], rfl, fun l' => ⟨fun h => by simp at h, ?_⟩⟩
      rintro ⟨A, B, a', b', e1, e2, rfl, -, -, -, e4⟩
      obtain ⟨rfl, rfl, rfl, rfl⟩ := huniq A B a' b' e1 e2
      have := (h3 y).2 e4
      rw [hr'] at this; cases this
    | some z =>
      refine ⟨_, rfl, fun l' => ?_⟩
      constructor
      · intro h
        split at h
        · rename_i hz
          rw [List.mem_singleton] at h
          refine fwd l' h ?_
          rw [h]
          exact (h3 y).1 (by rw [hr', hz.2])
        · simp at h
      · rintro ⟨A, B, a', b', e1, e2, rfl, -, -, -, e4⟩
        obtain ⟨rfl, rfl, rfl, rfl⟩ := huniq A B a' b' e1 e2
        have := (h3 y).2 e4
        rw [hr'] at this
        cases this
        rw [if_pos ⟨hy0, rfl⟩]
        simp
  · rw [if_neg hc]
    refine ⟨[], rfl, fun l' => ⟨fun h => by simp at h, ?_⟩⟩
    rintro ⟨A, B, a', b', e1, e2, -, e3, e4, e5, -⟩
    obtain ⟨rfl, rfl, rfl, rfl⟩ := huniq A B a' b' e1 e2
    exact absurd ⟨e3, e4, by rw [htake, min_prefix (by omega)]; exact e5⟩ hc

theorem nextAtoms_spec {l : List Int} (hl : AtomLine y l) (hr : l.length = y.rank) :
    ∃ L, nextAtoms l = .ok L ∧ ∀ l', l' ∈ L ↔ Step y l l' := by
  obtain ⟨u, hu, -⟩ := id hl
  have h1 := (lineInvolution_iff hu y).2 hl
  obtain ⟨rs, h2, h3⟩ := mapM_except (f := nextPair l y) (l := List.range (l.length - 1)) (fun i hi => by
    obtain ⟨L, h, -⟩ := nextPair_spec hl hr (i := i) (by rw [List.mem_range] at hi; omega)
    exact ⟨L, h⟩)
  refine ⟨nextTriples l ++ rs.flatten, ?_, fun l' => ?_⟩
  · unfold nextAtoms
    rw [h1]
    simp only
    rw [h2]; rfl
  · rw [List.mem_append, mem_nextTriples, List.mem_flatten]
    refine or_congr Iff.rfl ?_
    constructor
    · rintro ⟨L, hL, hl'⟩
      obtain ⟨i, hi, e⟩ := (h3 L).1 hL
      obtain ⟨L', h4, h5⟩ := nextPair_spec hl hr (i := i) (by rw [List.mem_range] at hi; omega)
      rw [h4] at e; cases e
      obtain ⟨A, B, a, b, -, h6⟩ := (h5 l').1 hl'
      exact ⟨A, B, a, b, h6⟩
    · rintro ⟨A, B, a, b, h6⟩
      have hlen : A.length + 1 < l.length := by rw [h6.1]; simp
      obtain ⟨L', h4, h5⟩ := nextPair_spec hl hr (i := A.length) hlen
      exact ⟨L', (h3 L').2 ⟨A.length, List.mem_range.2 (by omega), h4⟩, (h5 l').2 ⟨A, B, a, b, rfl, h6⟩⟩

theorem atomLevels_spec {M : Nat} (hM : ∀ l, AtomLine y l → l.length = y.rank → psi y.rank 1 l ≤ M) (fuel : Nat) (add : List (List Int))
    (hadd : ∀ l ∈ add, AtomLine y l ∧ l.length = y.rank) (h0 : 1 ≤ fuel) (h1 : ∀ l ∈ add, M + 2 ≤ psi y.rank 1 l + fuel) :
    ∃ L, atomLevels fuel add = .ok L ∧ ∀ l, l ∈ L ↔ ∃ l0 ∈ add, Relation.ReflTransGen (Step y) l0 l := by
  induction fuel generalizing add with
  | zero => omega
  | succ fuel ih =>
    rw [atomLevels]
    by_cases he : add = []
    · rw [if_pos he, he]
      exact ⟨[], rfl, by simp⟩
    · rw [if_neg he]
      obtain ⟨rs, h2, h3⟩ := mapM_except (f := nextAtoms) (l := add) (fun l hl => by
        obtain ⟨L, h, -⟩ := nextAtoms_spec (hadd l hl).1 (hadd l hl).2
        exact ⟨L, h⟩)
      have hnew : ∀ l', l' ∈ rs.flatten.dedup ↔ ∃ l ∈ add, Step y l l' := by
        intro l'
        rw [List.mem_dedup, List.mem_flatten]
        constructor
        · rintro ⟨L, hL, hl'⟩
          obtain ⟨l, hl, e⟩ := (h3 L).1 hL
          obtain ⟨L', h4, h5⟩ := nextAtoms_spec (hadd l hl).1 (hadd l hl).2
          rw [h4] at e; cases e
          exact ⟨l, hl, (h5 l').1 hl'⟩
        · rintro ⟨l, hl, hs⟩
          obtain ⟨L', h4, h5⟩ := nextAtoms_spec (hadd l hl).1 (hadd l hl).2
          exact ⟨L', (h3 L').2 ⟨l, hl, h4⟩, (h5 l').2 hs⟩
      obtain ⟨l1, hl1⟩ := List.exists_mem_of_ne_nil _ he
      have hf : 1 ≤ fuel := by
        have := hM l1 (hadd l1 hl1).1 (hadd l1 hl1).2
        have := h1 l1 hl1
        omega
      obtain ⟨L, h4, h5⟩ := ih rs.flatten.dedup (fun l' hl' => by
          obtain ⟨l, hl, hs⟩ := (hnew l').1 hl'
          exact ⟨hs.atom (hadd l hl).1, by rw [hs.length]; exact (hadd l hl).2⟩) hf (fun l' hl' => by
          obtain ⟨l, hl, hs⟩ := (hnew l').1 hl'
          have := psi_lt (N := y.rank) hs (fun v hv => by have := (hadd l hl).1.bound v hv; have := (hadd l hl).2; omega)
          have := h1 l hl
          omega)
      refine ⟨add ++ L, ?_, fun l => ?_⟩
      · rw [h2]
        show (do let rest ← atomLevels fuel rs.flatten.dedup; Except.ok (add ++ rest)) = _
        rw [h4]; rfl
      · rw [List.mem_append, h5]
        constructor
        · rintro (h | ⟨l0, h6, h7⟩)
          · exact ⟨l, h, .refl⟩
          · obtain ⟨l', hl', hs⟩ := (hnew l0).1 h6
            exact ⟨l', hl', .head hs h7⟩
        · rintro ⟨l0, h6, h7⟩
          rcases Relation.ReflTransGen.cases_head h7 with h8 | ⟨l', h8, h9⟩
          · subst h8; exact .inl h6
          · exact .inr ⟨l', (hnew l').2 ⟨l0, h6, h8⟩, h9⟩

/-! ### the minimal atom -/

/-- The larger element of a cycle. -/
def cycTop (y : SPerm) (m : Int) : Int := if m < y.call m ∧ -m < y.call m then y.call m else m

theorem fst_empty {v m : Int} : Fst y (fun _ _ => False) v m ↔ m < y.call m ∧ -m < y.call m ∧ v = y.call m := by
  unfold Fst; simp

theorem isEnd_empty {m : Int} : IsEnd y (fun _ _ => False) m ↔ IsMin y m := by
  unfold IsEnd; simp

theorem mem_cyc {p : Int × Int} :
    p ∈ pairs y ++ negations y ++ fixes y ↔ ∃ m ∈ ends y (fun _ _ => False), p = (m, cycTop y m) := by
  obtain ⟨p1, p2⟩ := p
  have hn := (call_odd y).neg
  simp only [List.mem_append, pairs, negations, fixes, List.mem_map, List.mem_filter, List.mem_range, mem_ends, isEnd_empty, IsMin, cycTop,
    decide_eq_true_eq, Prod.mk.injEq]
  constructor
  · rintro ((⟨k, ⟨h1, h2, h3⟩, rfl, rfl⟩ | ⟨k, ⟨h1, h2⟩, rfl, rfl⟩) | ⟨k, ⟨h1, h2⟩, rfl, rfl⟩)
    · exact ⟨(k : Int) - y.rank, ⟨by omega, by omega, by omega, by omega⟩, rfl, by rw [if_pos (by omega)]⟩
    · have := hn ((k : Int) + 1)
      exact ⟨-((k : Int) + 1), ⟨by omega, by omega, by omega, by omega⟩, rfl, by rw [if_neg (by omega)]⟩
    · exact ⟨(k : Int) + 1, ⟨by omega, by omega, by omega, by omega⟩, rfl, by rw [if_neg (by omega)]⟩
  · rintro ⟨m, ⟨h1, h2, h3, h4⟩, rfl, rfl⟩
    have hm := hn p1
    by_cases hc : p1 < y.call p1 ∧ -p1 < y.call p1
    · rw [if_pos hc]
      refine .inl (.inl ⟨(p1 + y.rank).toNat, ⟨by omega, ?_⟩, by omega, ?_⟩)
      · rw [show (((p1 + y.rank).toNat : Nat) : Int) - y.rank = p1 by omega]; omega
      · rw [show (((p1 + y.rank).toNat : Nat) : Int) - y.rank = p1 by omega]
    · rw [if_neg hc]
      rcases lt_or_ge 0 p1 with hp | hp
      · refine .inr ⟨(p1 - 1).toNat, ⟨by omega, ?_⟩, by omega, by omega⟩
        rw [show (((p1 - 1).toNat : Nat) : Int) + 1 = p1 by omega]; omega
      · refine .inl (.inr ⟨(-p1 - 1).toNat, ⟨by omega, ?_⟩, by omega, by omega⟩)
        rw [show (((-p1 - 1).toNat : Nat) : Int) + 1 = -p1 by omega]; omega

theorem nodup_cyc (y : SPerm) : (pairs y ++ negations y ++ fixes y).Nodup := by
  have hn := (call_odd y).neg
  refine List.Nodup.append (List.Nodup.append ?_ ?_ ?_) ?_ ?_
  · refine List.Nodup.map ?_ (List.Nodup.filter _ List.nodup_range)
    intro k k' h; simp only [Prod.mk.injEq] at h; omega
  · refine List.Nodup.map ?_ (List.Nodup.filter _ List.nodup_range)
    intro k k' h; simp only [Prod.mk.injEq] at h; omega
  · intro p h1 h2
    simp only [pairs, negations, List.mem_map, List.mem_filter, List.mem_range, decide_eq_true_eq] at h1 h2
    obtain ⟨k, ⟨h3, h4, h5⟩, rfl⟩ := h1
    obtain ⟨k', ⟨h6, h7⟩, e⟩ := h2
    simp only [Prod.mk.injEq] at e
    omega
  · refine List.Nodup.map ?_ (List.Nodup.filter _ List.nodup_range)
    intro k k' h; simp only [Prod.mk.injEq] at h; omega
  · intro p h1 h2
    simp only [pairs, negations, fixes, List.mem_append, List.mem_map, List.mem_filter, List.mem_range, decide_eq_true_eq] at h1 h2
    obtain ⟨k', ⟨h6, h7⟩, e⟩ := h2
    rcases h1 with ⟨k, ⟨h3, h4, h5⟩, rfl⟩ | ⟨k, ⟨h3, h4⟩, rfl⟩
    · simp only [Prod.mk.injEq] at e
      omega
    · simp only [Prod.mk.injEq] at e
      omega

theorem cyc_eq (y : SPerm) : cyc y = (ends y (fun _ _ => False)).map (fun m => (m, cycTop y m)) := by
  have hs := sorted_ends (y := y) (T := fun _ _ => False)
  have hp : (cyc y).Perm ((ends y (fun _ _ => False)).map (fun m => (m, cycTop y m))) := by
    refine (List.perm_insertionSort _ _).trans ?_
    refine (List.perm_ext_iff_of_nodup (nodup_cyc y) ?_).2 (fun p => ?_)
    · refine List.Nodup.map ?_ (hs.imp (fun h => ne_of_lt h))
      intro m m' h; simp only [Prod.mk.injEq] at h; exact h.1
    · rw [mem_cyc, List.mem_map]
      constructor
      · rintro ⟨m, h, rfl⟩; exact ⟨m, h, rfl⟩
      · rintro ⟨m, h, rfl⟩; exact ⟨m, h, rfl⟩
  refine hp.eq_of_pairwise (le := fun p q => pairLe p q = true) ?_ ?_ ?_
  · rintro ⟨a, b⟩ ⟨c, d⟩ - - h1 h2
    simp only [pairLe, Bool.or_eq_true, Bool.and_eq_true, decide_eq_true_eq, beq_iff_eq] at h1 h2
    rw [Prod.mk.injEq]; omega
  · have i1 : Std.Total (fun p q => pairLe p q = true) := ⟨by
      rintro ⟨a, b⟩ ⟨c, d⟩
      simp only [pairLe, Bool.or_eq_true, Bool.and_eq_true, decide_eq_true_eq, beq_iff_eq]
      omega⟩
    have i2 : IsTrans (Int × Int) (fun p q => pairLe p q = true) := ⟨by
      rintro ⟨a, b⟩ ⟨c, d⟩ ⟨e, f⟩ h1 h2
      simp only [pairLe, Bool.or_eq_true, Bool.and_eq_true, decide_eq_true_eq, beq_iff_eq] at h1 h2 ⊢
      omega⟩
    exact List.pairwise_insertionSort _ _
  · rw [List.pairwise_map]
    refine hs.imp (fun h => ?_)
    simp only [pairLe, Bool.or_eq_true, decide_eq_true_eq]
    exact .inl h

theorem drop_repeats {f : Int → List Int} (E : List Int) (acc : List Int) (hs : E.Pairwise (· < ·))
    (h1 : ∀ m ∈ E, m ≤ cycTop y m ∧ ∀ v, acc.getLast? = some v → v < m)
    (h2 : ∀ m ∈ E, f m = if cycTop y m = m then [m] else [cycTop y m, m]) :
    (E.flatMap (fun m => [cycTop y m, m])).foldl (fun minimum i => if minimum.getLast? = some i then minimum else minimum ++ [i]) acc =
      acc ++ E.flatMap f := by
  induction E generalizing acc with
  | nil => simp
  | cons m E ih =>
    obtain ⟨h3, h4⟩ := h1 m (by simp)
    have h5 : acc.getLast? ≠ some (cycTop y m) := fun e => by have := h4 _ e; omega
    rw [List.flatMap_cons, List.foldl_append, List.foldl_cons, if_neg h5, List.foldl_cons, List.foldl_nil]
    rw [List.pairwise_cons] at hs
    have hstep : (if (acc ++ [cycTop y m]).getLast? = some m then acc ++ [cycTop y m] else acc ++ [cycTop y m] ++ [m]) = acc ++ f m := by
      rw [h2 m (by simp), List.getLast?_concat]
      by_cases hc : cycTop y m = m
      · rw [if_pos (by rw [hc]), if_pos hc, hc]
      · rw [if_neg (by rw [Option.some.injEq]; exact hc), if_neg hc]; simp
    rw [hstep, ih (acc ++ f m) hs.2 ?_ (fun m' hm' => h2 m' (by simp [hm']))]
    · simp
    · intro m' hm'
      refine ⟨(h1 m' (by simp [hm'])).1, fun v hv => ?_⟩
      have hlast : (acc ++ f m).getLast? = some m := by
        rw [h2 m (by simp)]; split <;> simp
      rw [hlast] at hv; cases hv
      exact hs.1 m' hm'

theorem minInvAtomOneline_eq (y : SPerm) : minInvAtomOneline y = minLine y := by
  rw [minInvAtomOneline, cyc_eq y, dropRepeats, List.flatMap_map, minLine, gline]
  rw [drop_repeats (y := y) (f := blk y (fun _ _ => False)) _ [] sorted_ends]
  · simp
  · intro m _
    refine ⟨by unfold cycTop; split <;> omega, fun v hv => by simp at hv⟩
  · intro m _
    unfold cycTop blk
    by_cases hc : m < y.call m ∧ -m < y.call m
    · rw [if_pos hc, if_neg (by omega), pre_of_fst mat_empty (fst_empty.2 ⟨hc.1, hc.2, rfl⟩)]; rfl
    · rw [if_neg hc, if_pos rfl, pre_of_not (fun v hv => hc ⟨(fst_empty.1 hv).1, (fst_empty.1 hv).2.1⟩)]; rfl

end Verif.Perm
