import Verif.Lemmas.CrystalColumn
import Verif.Lemmas.CrystalSet

/-! One letter of a column changes: helper lemmas for the crystal operators on multiset-valued tableaux. -/

namespace Verif.Tab

open Verif.Part Verif.Words

attribute [-simp] List.getD_eq_getElem?_getD

/-- The letters `i`, `i + 1`. -/
def sig (i : Int) (l : List Int) : List Int := l.filter (fun a => decide (a = i ∨ a = i + 1))

theorem sig_append (i : Int) (u v : List Int) : sig i (u ++ v) = sig i u ++ sig i v := List.filter_append ..

theorem sig_nil_iff {i : Int} {l : List Int} : sig i l = [] ↔ i ∉ l ∧ i + 1 ∉ l := by
  rw [sig, List.filter_eq_nil_iff]
  constructor
  · intro h; exact ⟨fun h1 => h i h1 (by simp), fun h1 => h _ h1 (by simp)⟩
  · rintro ⟨h1, h2⟩ a ha
    simp only [decide_eq_true_eq]
    rintro (rfl | rfl)
    · exact h1 ha
    · exact h2 ha

/-- The first of the two letters in a sorted list. -/
theorem sig_head_sorted {i : Int} {l : List Int} (h : l.Pairwise (· ≤ ·)) (hi : i ∈ l) : (sig i l).head? = some i := by
  have hm : i ∈ sig i l := by rw [sig, List.mem_filter]; exact ⟨hi, by simp⟩
  have hs : (sig i l).Pairwise (· ≤ ·) := h.sublist List.filter_sublist
  cases hl : sig i l with
  | nil => rw [hl] at hm; simp at hm
  | cons a l' =>
    rw [hl] at hs hm
    have ha : a ∈ sig i l := by rw [hl]; simp
    rw [sig, List.mem_filter] at ha
    have h1 := ha.2
    simp only [decide_eq_true_eq] at h1
    rcases List.mem_cons.1 hm with h2 | h2
    · rw [h2]; rfl
    · have := (List.pairwise_cons.1 hs).1 i h2
      have : a = i := by omega
      rw [this]; rfl

theorem sig_last_sorted {i : Int} {l : List Int} (h : l.Pairwise (· ≤ ·)) (hi : i + 1 ∈ l) : (sig i l).getLast? = some (i + 1) := by
  have hm : i + 1 ∈ sig i l := by rw [sig, List.mem_filter]; exact ⟨hi, by simp⟩
  have hs : (sig i l).Pairwise (· ≤ ·) := h.sublist List.filter_sublist
  rcases List.eq_nil_or_concat (sig i l) with hl | ⟨l', a, hl⟩
  · rw [hl] at hm; simp at hm
  · rw [List.concat_eq_append] at hl
    rw [hl] at hs hm
    have ha : a ∈ sig i l := by rw [hl]; simp
    rw [sig, List.mem_filter] at ha
    have h1 := ha.2
    simp only [decide_eq_true_eq] at h1
    rw [hl, List.getLast?_append]
    simp only [List.getLast?_singleton, Option.some_or, Option.some.injEq]
    rcases List.mem_append.1 hm with h2 | h2
    · have := (List.pairwise_append.1 hs).2.2 _ h2 a (by simp)
      omega
    · simp at h2; exact h2.symm

theorem head?_append_nil {l l' : List Int} (h : l = []) : (l ++ l').head? = l'.head? := by rw [h]; rfl

theorem head?_append_ne {l l' : List Int} {a : Int} (h : l.head? = some a) : (l ++ l').head? = some a := by
  cases l with
  | nil => simp at h
  | cons b l => simpa using h

theorem last?_append_ne {l l' : List Int} {a : Int} (h : l'.getLast? = some a) : (l ++ l').getLast? = some a := by
  rw [List.getLast?_append, h]; rfl

/-- Parts of a column. -/
theorem IsCol.append_iff {A E : List (List Int)} : IsCol (A ++ E) ↔ IsCol A ∧ IsCol E ∧ ∀ B ∈ A, ∀ B' ∈ E, ∀ v ∈ B, ∀ w ∈ B', v < w := by
  unfold IsCol
  rw [List.pairwise_append]
  constructor
  · rintro ⟨h1, h2, h3, h4⟩
    exact ⟨⟨fun B hB => h1 B (by simp [hB]), h2⟩, ⟨fun B hB => h1 B (by simp [hB]), h3⟩, h4⟩
  · rintro ⟨⟨h1, h2⟩, ⟨h3, h4⟩, h5⟩
    refine ⟨?_, h2, h4, h5⟩
    intro B hB
    rcases List.mem_append.1 hB with h | h
    · exact h1 B h
    · exact h3 B h

theorem IsCol.cons_iff {B : List Int} {E : List (List Int)} : IsCol (B :: E) ↔ (B ≠ [] ∧ B.Pairwise (· ≤ ·)) ∧ IsCol E ∧
    ∀ B' ∈ E, ∀ v ∈ B, ∀ w ∈ B', v < w := by
  unfold IsCol
  rw [List.pairwise_cons]
  constructor
  · rintro ⟨h1, h2, h3⟩
    exact ⟨h1 B (by simp), ⟨fun B hB => h1 B (by simp [hB]), h3⟩, h2⟩
  · rintro ⟨h1, ⟨h3, h4⟩, h5⟩
    refine ⟨?_, h5, h4⟩
    intro B hB
    rcases List.mem_cons.1 hB with h | h
    · rw [h]; exact h1
    · exact h3 B h

theorem mem_revHeads {C : List (List Int)} {v : Int} (h : v ∈ revHeads C) : ∃ B ∈ C, v ∈ B := by
  rw [← mem_columnWord, columnWord_eq]; simp [h]

theorem mem_tails {C : List (List Int)} {v : Int} (h : v ∈ tails C) : ∃ B ∈ C, v ∈ B := by
  rw [← mem_columnWord, columnWord_eq]; simp [h]

/-- What changes in a column under `f`. -/
def StepF (i : Int) (v : List Int) (C C' : List (List Int)) : Prop :=
  C'.length = C.length ∧ ∀ k, ∀ x ∈ C'.getD k [], x ∈ C.getD k [] ∨
    (x = i + 1 ∧ i ∈ C.getD k [] ∧ i + 1 ∉ C.getD (k + 1) [] ∧ (i + 1 ∉ C.getD k [] → sig i v = []))

theorem getD_mid {A E : List (List Int)} {B : List Int} (k : Nat) :
    (A ++ B :: E).getD k [] = if k < A.length then A.getD k [] else if k = A.length then B else E.getD (k - A.length - 1) [] := by
  rcases Nat.lt_trichotomy k A.length with h | h | h
  · rw [if_pos h, List.getD_append _ _ _ _ h]
  · subst h
    rw [if_neg (by omega), if_pos rfl, List.getD_append_right _ _ _ _ le_rfl, Nat.sub_self, List.getD_cons_zero]
  · rw [if_neg (by omega), if_neg (by omega), List.getD_append_right _ _ _ _ (by omega)]
    obtain ⟨d, hd⟩ : ∃ d, k - A.length = d + 1 := ⟨k - A.length - 1, by omega⟩
    rw [hd, List.getD_cons_succ, Nat.add_sub_cancel]

theorem getD_head (E : List (List Int)) (x : Int) : x ∈ E.getD 0 [] → ∃ B2 E', E = B2 :: E' ∧ x ∈ B2 := by
  intro h
  cases E with
  | nil => simp [List.getD_eq_getElem?_getD] at h
  | cons B2 E' => exact ⟨B2, E', rfl, by simpa [List.getD_cons_zero] using h⟩

theorem col_f {i : Int} {C : List (List Int)} {u v : List Int} (hC : IsCol C) (h : columnWord C = u ++ i :: v)
    (hv : (sig i v).head? ≠ some i) (hu : (sig i u).getLast? ≠ some (i + 1)) :
    ∃ C', IsCol C' ∧ columnWord C' = u ++ (i + 1) :: v ∧ StepF i v C C' := by
  rcases columnWord_split h (fun B hB => (hC.1 B hB).1) with ⟨A, q, E, rfl, rfl, rfl⟩ | ⟨A, b, p, q, E, rfl, rfl, rfl⟩
  · obtain ⟨hA, hBE, hAB⟩ := IsCol.append_iff.1 hC
    obtain ⟨⟨_, hB⟩, hE, hBE'⟩ := IsCol.cons_iff.1 hBE
    have hq := List.pairwise_cons.1 hB
    have hAlt : ∀ x, (∃ B ∈ A, x ∈ B) → x < i := fun x ⟨B, hB, hx⟩ => hAB B hB (i :: q) (by simp) x hx i (by simp)
    have hsA : sig i (revHeads A) = [] := by
      rw [sig_nil_iff]
      constructor
      · intro hx; have := hAlt _ (mem_revHeads hx); omega
      · intro hx; have := hAlt _ (mem_revHeads hx); omega
    have hsA' : sig i (tails A) = [] := by
      rw [sig_nil_iff]
      constructor
      · intro hx; have := hAlt _ (mem_tails hx); omega
      · intro hx; have := hAlt _ (mem_tails hx); omega
    have hvv : sig i (revHeads A ++ tails (A ++ (i :: q) :: E)) = sig i q ++ sig i (tails E) := by
      rw [tails_append, tails_cons, sig_append, sig_append, sig_append, hsA, hsA']; rfl
    rw [hvv] at hv
    have hiq : i ∉ q := by
      intro hx
      exact hv (head?_append_ne (sig_head_sorted hq.2 hx))
    have hq1 : ∀ x ∈ q, i + 1 ≤ x := by
      intro x hx
      have h1 := hq.1 x hx
      have : x ≠ i := by rintro rfl; exact hiq hx
      omega
    have hE1 : ∀ B' ∈ E, ∀ w ∈ B', i + 1 < w := by
      intro B' hB' w hw
      have h1 := hBE' B' hB' i (by simp) w hw
      by_contra hc
      have hw1 : w = i + 1 := by omega
      subst hw1
      cases E with
      | nil => simp at hB'
      | cons B2 E' =>
        obtain ⟨⟨hB2, hB2s⟩, hE', hBE2⟩ := IsCol.cons_iff.1 hE
        cases B2 with
        | nil => exact hB2 rfl
        | cons c q2 =>
          have hc1 := hBE' _ List.mem_cons_self i (by simp) c (by simp)
          have hc2 : c = i + 1 := by
            rcases List.mem_cons.1 hB' with rfl | hB'
            · rcases List.mem_cons.1 hw with h2 | h2
              · exact h2.symm
              · have := (List.pairwise_cons.1 hB2s).1 _ h2; omega
            · have := hBE2 B' hB' c (by simp) _ hw; omega
          apply hu
          rw [revHeads_cons, sig_append]
          apply last?_append_ne
          rw [hc2]; simp [sig]
    refine ⟨A ++ ((i + 1) :: q) :: E, ?_, ?_, by simp, ?_⟩
    · rw [IsCol.append_iff, IsCol.cons_iff]
      refine ⟨hA, ⟨⟨by simp, ?_⟩, hE, ?_⟩, ?_⟩
      · rw [List.pairwise_cons]; exact ⟨hq1, hq.2⟩
      · intro B' hB' x hx w hw
        rcases List.mem_cons.1 hx with rfl | hx
        · exact hE1 B' hB' w hw
        · exact hBE' B' hB' x (by simp [hx]) w hw
      · intro B hB B' hB' x hx w hw
        rcases List.mem_cons.1 hB' with rfl | hB'
        · have h1 := hAB B hB (i :: q) (by simp) x hx i (by simp)
          rcases List.mem_cons.1 hw with rfl | hw
          · omega
          · exact hAB B hB (i :: q) (by simp) x hx w (by simp [hw])
        · exact hAB B hB B' (by simp [hB']) x hx w hw
    · rw [columnWord_eq, revHeads_append, revHeads_cons, tails_append, tails_cons, tails_append, tails_cons]
      simp
    · intro k x hx
      rw [getD_mid] at hx
      rw [getD_mid, getD_mid]
      split at hx
      · rename_i hk; left; rw [if_pos hk]; exact hx
      · rename_i hk
        split at hx
        · rename_i hk'
          rw [if_neg hk, if_pos hk']
          rcases List.mem_cons.1 hx with rfl | hx
          · right
            refine ⟨rfl, by simp, ?_, ?_⟩
            · rw [if_neg (by omega), if_neg (by omega)]
              have : k + 1 - A.length - 1 = 0 := by omega
              rw [this]
              intro hh
              obtain ⟨B2, E', rfl, hh⟩ := getD_head E _ hh
              have := hE1 B2 (by simp) _ hh
              omega
            · intro hh
              rw [hvv]
              have h1 : sig i q = [] := by rw [sig_nil_iff]; exact ⟨hiq, fun h => hh (by simp [h])⟩
              have h2 : sig i (tails E) = [] := by
                rw [sig_nil_iff]
                constructor
                · intro hx; obtain ⟨B, hB, hx⟩ := mem_tails hx; have := hE1 B hB _ hx; omega
                · intro hx; obtain ⟨B, hB, hx⟩ := mem_tails hx; have := hE1 B hB _ hx; omega
              rw [h1, h2]; rfl
          · left; simp [hx]
        · rename_i hk'; left; rw [if_neg hk, if_neg hk']; exact hx
  · obtain ⟨hA, hBE, hAB⟩ := IsCol.append_iff.1 hC
    obtain ⟨⟨_, hB⟩, hE, hBE'⟩ := IsCol.cons_iff.1 hBE
    have hp := List.pairwise_cons.1 hB
    have hpq := List.pairwise_append.1 hp.2
    have hq := List.pairwise_cons.1 hpq.2.1
    rw [sig_append] at hv
    have hiq : i ∉ q := by
      intro hx
      exact hv (head?_append_ne (sig_head_sorted hq.2 hx))
    have hq1 : ∀ x ∈ q, i + 1 ≤ x := by
      intro x hx
      have h1 := hq.1 x hx
      have : x ≠ i := by rintro rfl; exact hiq hx
      omega
    by_cases hc : i + 1 ∈ E.getD 0 []
    · obtain ⟨B2, E', rfl, hB2⟩ := getD_head E _ hc
      obtain ⟨⟨hB2n, hB2s⟩, hE', hBE2⟩ := IsCol.cons_iff.1 hE
      have hq0 : q = [] := by
        rw [List.eq_nil_iff_forall_not_mem]
        intro x hx
        have h1 := hq1 x hx
        have := hBE' B2 (by simp) x (by simp [hx]) _ hB2
        omega
      subst hq0
      have hB2' : ∃ q2, B2 = (i + 1) :: q2 := by
        cases B2 with
        | nil => exact absurd rfl hB2n
        | cons c q2 =>
          have hc1 := hBE' _ List.mem_cons_self i (by simp) c (by simp)
          rcases List.mem_cons.1 hB2 with h2 | h2
          · exact ⟨q2, by rw [h2]⟩
          · have := (List.pairwise_cons.1 hB2s).1 _ h2
            exact ⟨q2, by rw [show c = i + 1 by omega]⟩
      obtain ⟨q2, rfl⟩ := hB2'
      refine ⟨A ++ (b :: p) :: (((i + 1) :: (i + 1) :: q2) :: E'), ?_, ?_, by simp, ?_⟩
      · rw [IsCol.append_iff, IsCol.cons_iff, IsCol.cons_iff]
        refine ⟨hA, ⟨⟨by simp, ?_⟩, ⟨⟨by simp, ?_⟩, hE', ?_⟩, ?_⟩, ?_⟩
        · exact hB.sublist (by simp)
        · rw [List.pairwise_cons]
          refine ⟨?_, hB2s⟩
          intro x hx
          rcases List.mem_cons.1 hx with rfl | hx
          · exact le_rfl
          · exact (List.pairwise_cons.1 hB2s).1 x hx
        · intro B' hB' x hx w hw
          exact hBE2 B' hB' x (by simp only [List.mem_cons] at hx ⊢; tauto) w hw
        · intro B' hB' x hx w hw
          have hx' : x ∈ b :: (p ++ [i]) := by simp only [List.mem_cons, List.mem_append] at hx ⊢; tauto
          rcases List.mem_cons.1 hB' with rfl | hB'
          · exact hBE' _ List.mem_cons_self x hx' w (by simp only [List.mem_cons] at hw ⊢; tauto)
          · exact hBE' B' (by simp [hB']) x hx' w hw
        · intro B hB B' hB' x hx w hw
          rcases List.mem_cons.1 hB' with rfl | hB'
          · exact hAB B hB _ List.mem_cons_self x hx w (by simp only [List.mem_cons, List.mem_append] at hw ⊢; tauto)
          · rcases List.mem_cons.1 hB' with rfl | hB'
            · exact hAB B hB _ (List.mem_cons_of_mem _ List.mem_cons_self) x hx w (by simp only [List.mem_cons] at hw ⊢; tauto)
            · exact hAB B hB B' (by simp [hB']) x hx w hw
      · rw [columnWord_eq]
        simp only [revHeads_append, revHeads_cons, tails_append, tails_cons]
        simp
      · intro k x hx
        left
        rw [getD_mid] at hx ⊢
        split at hx
        · rename_i hk; rw [if_pos hk]; exact hx
        · rename_i hk
          split at hx
          · rename_i hk'
            rw [if_neg hk, if_pos hk']
            simp only [List.mem_cons, List.mem_append] at hx ⊢; tauto
          · rename_i hk'; rw [if_neg hk, if_neg hk']
            rcases Nat.eq_zero_or_pos (k - A.length - 1) with h0 | h0
            · rw [h0, List.getD_cons_zero] at hx ⊢
              simp only [List.mem_cons] at hx ⊢; tauto
            · obtain ⟨d, hd⟩ : ∃ d, k - A.length - 1 = d + 1 := ⟨_, (Nat.sub_add_cancel h0).symm⟩
              rw [hd, List.getD_cons_succ] at hx ⊢
              exact hx
    · have hE1 : ∀ B' ∈ E, ∀ w ∈ B', i + 1 < w := by
        intro B' hB' w hw
        have h1 := hBE' B' hB' i (by simp) w hw
        by_contra hc2
        have hw1 : w = i + 1 := by omega
        subst hw1
        cases E with
        | nil => simp at hB'
        | cons B2 E' =>
          obtain ⟨⟨hB2, hB2s⟩, hE', hBE2⟩ := IsCol.cons_iff.1 hE
          rw [List.getD_cons_zero] at hc
          rcases List.mem_cons.1 hB' with rfl | hB3
          · exact hc hw
          · cases B2 with
            | nil => exact hB2 rfl
            | cons c q2 =>
              have h2 := hBE' _ List.mem_cons_self i (by simp) c (by simp)
              have := hBE2 B' hB3 c (by simp) _ hw
              omega
      refine ⟨A ++ (b :: (p ++ (i + 1) :: q)) :: E, ?_, ?_, by simp, ?_⟩
      · rw [IsCol.append_iff, IsCol.cons_iff]
        refine ⟨hA, ⟨⟨by simp, ?_⟩, hE, ?_⟩, ?_⟩
        · rw [List.pairwise_cons, List.pairwise_append, List.pairwise_cons]
          refine ⟨?_, hpq.1, ⟨hq1, hq.2⟩, ?_⟩
          · intro x hx
            rcases List.mem_append.1 hx with hx | hx
            · exact hp.1 x (by simp [hx])
            · rcases List.mem_cons.1 hx with rfl | hx
              · have := hp.1 i (by simp); omega
              · exact hp.1 x (by simp [hx])
          · intro x hx y hy
            rcases List.mem_cons.1 hy with rfl | hy
            · have := hpq.2.2 x hx i (by simp); omega
            · exact hpq.2.2 x hx y (by simp [hy])
        · intro B' hB' x hx w hw
          by_cases hx1 : x = i + 1
          · subst hx1; exact hE1 B' hB' w hw
          · exact hBE' B' hB' x (by simp only [List.mem_cons, List.mem_append] at hx ⊢; tauto) w hw
        · intro B hB B' hB' x hx w hw
          rcases List.mem_cons.1 hB' with rfl | hB'
          · have h1 := hAB B hB _ List.mem_cons_self x hx i (by simp)
            by_cases hw1 : w = i + 1
            · omega
            · exact hAB B hB _ List.mem_cons_self x hx w (by simp only [List.mem_cons, List.mem_append] at hw ⊢; tauto)
          · exact hAB B hB B' (by simp [hB']) x hx w hw
      · rw [columnWord_eq]
        simp only [revHeads_append, revHeads_cons, tails_append, tails_cons]
        simp
      · intro k x hx
        rw [getD_mid] at hx
        rw [getD_mid, getD_mid]
        split at hx
        · rename_i hk; left; rw [if_pos hk]; exact hx
        · rename_i hk
          split at hx
          · rename_i hk'
            rw [if_neg hk, if_pos hk']
            by_cases hx1 : x ∈ b :: (p ++ i :: q)
            · left; exact hx1
            · right
              have hx2 : x = i + 1 := by
                simp only [List.mem_cons, List.mem_append] at hx hx1; tauto
              subst hx2
              refine ⟨rfl, by simp, ?_, ?_⟩
              · rw [if_neg (by omega), if_neg (by omega)]
                have : k + 1 - A.length - 1 = 0 := by omega
                rw [this]; exact hc
              · intro hh
                rw [sig_append]
                have h1 : sig i q = [] := by rw [sig_nil_iff]; exact ⟨hiq, fun h => hh (by simp [h])⟩
                have h2 : sig i (tails E) = [] := by
                  rw [sig_nil_iff]
                  constructor
                  · intro hx; obtain ⟨B, hB, hx⟩ := mem_tails hx; have := hE1 B hB _ hx; omega
                  · intro hx; obtain ⟨B, hB, hx⟩ := mem_tails hx; have := hE1 B hB _ hx; omega
                rw [h1, h2]; rfl
          · rename_i hk'; left; rw [if_neg hk, if_neg hk']; exact hx

/-- What changes in a column under `e`. -/
def StepE (i : Int) (u : List Int) (C C' : List (List Int)) : Prop :=
  C'.length = C.length ∧ ∀ k, ∀ x ∈ C'.getD k [], x ∈ C.getD k [] ∨
    (x = i ∧ i + 1 ∈ C.getD k [] ∧ ((∃ y ∈ C.getD k [], y ≤ i) ∨ ((∀ B ∈ C, i ∉ B) ∧ sig i u = [])))

theorem col_e {i : Int} {C : List (List Int)} {u v : List Int} (hC : IsCol C) (h : columnWord C = u ++ (i + 1) :: v)
    (hv : (sig i v).head? ≠ some i) (hu : (sig i u).getLast? ≠ some (i + 1)) :
    ∃ C', IsCol C' ∧ columnWord C' = u ++ i :: v ∧ StepE i u C C' := by
  rcases columnWord_split h (fun B hB => (hC.1 B hB).1) with ⟨A, q, E, rfl, rfl, rfl⟩ | ⟨A, b, p, q, E, rfl, rfl, rfl⟩
  · obtain ⟨hA, hBE, hAB⟩ := IsCol.append_iff.1 hC
    obtain ⟨⟨_, hB⟩, hE, hBE'⟩ := IsCol.cons_iff.1 hBE
    have hq := List.pairwise_cons.1 hB
    have hAlt : ∀ B ∈ A, ∀ x ∈ B, x < i + 1 := fun B hB x hx => hAB B hB _ List.mem_cons_self x hx (i + 1) (by simp)
    have hAi : ∀ B ∈ A, i ∉ B := by
      intro B hBA hi
      obtain ⟨F, hF⟩ : ∃ F, columnWord A = F := ⟨_, rfl⟩
      have hmem : i ∈ columnWord A := mem_columnWord.2 ⟨B, hBA, hi⟩
      have hj : i + 1 ∉ columnWord A := by
        intro hh
        obtain ⟨B', hB', hh⟩ := mem_columnWord.1 hh
        have := hAlt B' hB' _ hh
        omega
      apply hv
      rw [tails_append, ← List.append_assoc, ← columnWord_eq, sig_append]
      apply head?_append_ne
      have hm : i ∈ sig i (columnWord A) := by rw [sig, List.mem_filter]; exact ⟨hmem, by simp⟩
      cases hs : sig i (columnWord A) with
      | nil => rw [hs] at hm; simp at hm
      | cons a l =>
        have ha : a ∈ sig i (columnWord A) := by rw [hs]; simp
        rw [sig, List.mem_filter] at ha
        obtain ⟨ha1, ha2⟩ := ha
        simp only [decide_eq_true_eq] at ha2
        rcases ha2 with rfl | rfl
        · rfl
        · exact absurd ha1 hj
    have hAlt' : ∀ B ∈ A, ∀ x ∈ B, x < i := by
      intro B hBm x hx
      have h1 := hAlt B hBm x hx
      have : x ≠ i := by intro he; exact hAi B hBm (he ▸ hx)
      omega
    have hElt : ∀ B ∈ E, ∀ x ∈ B, i + 1 < x := fun B hB x hx => hBE' B hB (i + 1) (by simp) x hx
    refine ⟨A ++ (i :: q) :: E, ?_, ?_, by simp, ?_⟩
    · rw [IsCol.append_iff, IsCol.cons_iff]
      refine ⟨hA, ⟨⟨by simp, ?_⟩, hE, ?_⟩, ?_⟩
      · rw [List.pairwise_cons]
        exact ⟨fun x hx => by have := hq.1 x hx; omega, hq.2⟩
      · intro B' hB' x hx w hw
        rcases List.mem_cons.1 hx with rfl | hx
        · have := hElt B' hB' w hw; omega
        · exact hBE' B' hB' x (by simp [hx]) w hw
      · intro B hBm B' hB' x hx w hw
        rcases List.mem_cons.1 hB' with rfl | hB'
        · rcases List.mem_cons.1 hw with h1 | hw
          · rw [h1]; exact hAlt' B hBm x hx
          · exact hAB B hBm _ List.mem_cons_self x hx w (by simp [hw])
        · exact hAB B hBm B' (by simp [hB']) x hx w hw
    · rw [columnWord_eq, revHeads_append, revHeads_cons, tails_append, tails_cons, tails_append, tails_cons]
      simp
    · intro k x hx
      rw [getD_mid] at hx
      rw [getD_mid]
      split at hx
      · rename_i hk; left; rw [if_pos hk]; exact hx
      · rename_i hk
        split at hx
        · rename_i hk'
          rw [if_neg hk, if_pos hk']
          rcases List.mem_cons.1 hx with rfl | hx
          · right
            refine ⟨rfl, by simp, Or.inr ⟨?_, ?_⟩⟩
            · intro B hBm hi
              rcases List.mem_append.1 hBm with hBm | hBm
              · exact hAi B hBm hi
              · rcases List.mem_cons.1 hBm with rfl | hBm
                · rcases List.mem_cons.1 hi with h1 | h1
                  · omega
                  · have := hq.1 _ h1; omega
                · have := hElt B hBm _ hi; omega
            · rw [sig_nil_iff]
              constructor
              · intro hx; obtain ⟨B, hB, hx⟩ := mem_revHeads hx; have := hElt B hB _ hx; omega
              · intro hx; obtain ⟨B, hB, hx⟩ := mem_revHeads hx; have := hElt B hB _ hx; omega
          · left; simp [hx]
        · rename_i hk'; left; rw [if_neg hk, if_neg hk']; exact hx
  · obtain ⟨hA, hBE, hAB⟩ := IsCol.append_iff.1 hC
    obtain ⟨⟨_, hB⟩, hE, hBE'⟩ := IsCol.cons_iff.1 hBE
    have hp := List.pairwise_cons.1 hB
    have hpq := List.pairwise_append.1 hp.2
    have hq := List.pairwise_cons.1 hpq.2.1
    have hjp : i + 1 ∉ p := by
      intro hx
      apply hu
      rw [sig_append]
      exact last?_append_ne (sig_last_sorted hpq.1 hx)
    have hp1 : ∀ x ∈ p, x ≤ i := by
      intro x hx
      have h1 := hpq.2.2 x hx (i + 1) (by simp)
      have : x ≠ i + 1 := by rintro rfl; exact hjp hx
      omega
    by_cases hb : b = i + 1
    · subst hb
      have hp0 : p = [] := by
        rw [List.eq_nil_iff_forall_not_mem]
        intro x hx
        have h1 := hp1 x hx
        have := hp.1 x (by simp [hx])
        omega
      subst hp0
      have hAlt : ∀ B ∈ A, ∀ x ∈ B, x < i + 1 := fun B hB x hx => hAB B hB _ List.mem_cons_self x hx (i + 1) (by simp)
      have hiA : i ∈ columnWord A := by
        by_contra hc
        apply hu
        rw [List.append_nil, revHeads_append, revHeads_cons, List.append_assoc, List.append_assoc, ← List.append_assoc (revHeads E),
          List.append_assoc, List.singleton_append, ← List.singleton_append, ← columnWord_eq, sig_append, sig_append]
        have : sig i (columnWord A) = [] := by
          rw [sig_nil_iff]
          refine ⟨hc, ?_⟩
          intro hh
          obtain ⟨B', hB', hh⟩ := mem_columnWord.1 hh
          have := hAlt B' hB' _ hh
          omega
        rw [this, List.append_nil]
        apply last?_append_ne
        simp [sig]
      obtain ⟨B0, hB0, hi0⟩ := mem_columnWord.1 hiA
      obtain ⟨A', B1, rfl⟩ : ∃ A' B1, A = A' ++ [B1] := by
        rcases List.eq_nil_or_concat A with h0 | ⟨A', B1, h0⟩
        · subst h0; simp at hB0
        · exact ⟨A', B1, by rw [h0, List.concat_eq_append]⟩
      obtain ⟨hA', hB1, hAB1⟩ := IsCol.append_iff.1 hA
      have hi1 : i ∈ B1 := by
        rcases List.mem_append.1 hB0 with h0 | h0
        · obtain ⟨y, hy⟩ := List.exists_mem_of_ne_nil B1 (hB1.1 B1 (by simp)).1
          have h1 := hAB1 B0 h0 B1 (by simp) i hi0 y hy
          have h2 := hAlt B1 (by simp) y hy
          omega
        · simp at h0; rw [← h0]; exact hi0
      obtain ⟨c, p1, rfl⟩ : ∃ c p1, B1 = c :: p1 := by
        cases B1 with
        | nil => simp at hi1
        | cons c p1 => exact ⟨c, p1, rfl⟩
      have hc := (hB1.1 _ List.mem_cons_self).2
      have hcp := List.pairwise_cons.1 hc
      refine ⟨A' ++ (c :: (p1 ++ [i])) :: (((i + 1) :: q) :: E), ?_, ?_, by simp, ?_⟩
      · rw [IsCol.append_iff, IsCol.cons_iff, IsCol.cons_iff]
        have hci : ∀ x ∈ c :: (p1 ++ [i]), x ∈ c :: p1 := by
          intro x hx
          simp only [List.mem_cons, List.mem_append, List.not_mem_nil, or_false] at hx ⊢
          rcases hx with hx | hx | hx
          · exact Or.inl hx
          · exact Or.inr hx
          · rw [hx]; simpa using hi1
        refine ⟨hA', ⟨⟨by simp, ?_⟩, ⟨⟨by simp, ?_⟩, hE, ?_⟩, ?_⟩, ?_⟩
        · rw [List.pairwise_cons, List.pairwise_append]
          have hle : ∀ x ∈ c :: p1, x ≤ i := by
            intro x hx
            have := hAlt (c :: p1) (by simp) x hx
            omega
          refine ⟨?_, hcp.2, by simp, ?_⟩
          · intro x hx
            rcases List.mem_append.1 hx with hx | hx
            · exact hcp.1 x hx
            · simp at hx; subst hx; exact hle c (by simp)
          · intro x hx y hy
            simp at hy; subst hy; exact hle x (by simp [hx])
        · simpa using hpq.2.1
        · intro B' hB' x hx w hw
          exact hBE' B' hB' x (by simp only [List.mem_cons, List.mem_append] at hx ⊢; tauto) w hw
        · intro B' hB' x hx w hw
          rcases List.mem_cons.1 hB' with rfl | hB'
          · exact hAB (c :: p1) (by simp) _ List.mem_cons_self x (hci x hx) w (by simp only [List.mem_cons, List.mem_append] at hw ⊢; tauto)
          · exact hAB (c :: p1) (by simp) B' (by simp [hB']) x (hci x hx) w hw
        · intro B hB B' hB' x hx w hw
          rcases List.mem_cons.1 hB' with rfl | hB'
          · exact hAB1 B hB _ List.mem_cons_self x hx w (hci w hw)
          · rcases List.mem_cons.1 hB' with rfl | hB'
            · exact hAB B (by simp [hB]) _ List.mem_cons_self x hx w (by simp only [List.mem_cons, List.mem_append] at hw ⊢; tauto)
            · exact hAB B (by simp [hB]) B' (by simp [hB']) x hx w hw
      · rw [columnWord_eq]
        simp only [revHeads_append, revHeads_cons, tails_append, tails_cons]
        simp [show revHeads [] = [] from rfl, show tails [] = [] from rfl]
      · intro k x hx
        left
        have e1 : A' ++ [c :: p1] ++ ((i + 1) :: ([] ++ (i + 1) :: q)) :: E = A' ++ (c :: p1) :: (((i + 1) :: (i + 1) :: q) :: E) := by simp
        rw [e1]
        rw [getD_mid] at hx ⊢
        split at hx
        · rename_i hk; rw [if_pos hk]; exact hx
        · rename_i hk
          split at hx
          · rename_i hk'
            rw [if_neg hk, if_pos hk']
            simp only [List.mem_cons, List.mem_append, List.not_mem_nil, or_false] at hx hi1 ⊢
            rcases hx with hx | hx | hx
            · exact Or.inl hx
            · exact Or.inr hx
            · rw [hx]; exact hi1
          · rename_i hk'; rw [if_neg hk, if_neg hk']
            rcases Nat.eq_zero_or_pos (k - A'.length - 1) with h0 | h0
            · rw [h0, List.getD_cons_zero] at hx ⊢
              simp only [List.mem_cons] at hx ⊢; tauto
            · obtain ⟨d, hd⟩ : ∃ d, k - A'.length - 1 = d + 1 := ⟨_, (Nat.sub_add_cancel h0).symm⟩
              rw [hd, List.getD_cons_succ] at hx ⊢
              exact hx
    · have hb1 : b ≤ i := by
        have := hp.1 (i + 1) (by simp)
        omega
      refine ⟨A ++ (b :: (p ++ i :: q)) :: E, ?_, ?_, by simp, ?_⟩
      · rw [IsCol.append_iff, IsCol.cons_iff]
        refine ⟨hA, ⟨⟨by simp, ?_⟩, hE, ?_⟩, ?_⟩
        · rw [List.pairwise_cons, List.pairwise_append, List.pairwise_cons]
          refine ⟨?_, hpq.1, ⟨fun x hx => by have := hq.1 x hx; omega, hq.2⟩, ?_⟩
          · intro x hx
            rcases List.mem_append.1 hx with hx | hx
            · exact hp.1 x (by simp [hx])
            · rcases List.mem_cons.1 hx with rfl | hx
              · exact hb1
              · exact hp.1 x (by simp [hx])
          · intro x hx y hy
            rcases List.mem_cons.1 hy with rfl | hy
            · exact hp1 x hx
            · exact hpq.2.2 x hx y (by simp [hy])
        · intro B' hB' x hx w hw
          by_cases hx1 : x = i
          · subst hx1
            have := hBE' B' hB' (x + 1) (by simp) w hw; omega
          · exact hBE' B' hB' x (by simp only [List.mem_cons, List.mem_append] at hx ⊢; tauto) w hw
        · intro B hB B' hB' x hx w hw
          rcases List.mem_cons.1 hB' with rfl | hB'
          · have h1 := hAB B hB _ List.mem_cons_self x hx b (by simp)
            by_cases hw1 : w = i
            · omega
            · exact hAB B hB _ List.mem_cons_self x hx w (by simp only [List.mem_cons, List.mem_append] at hw ⊢; tauto)
          · exact hAB B hB B' (by simp [hB']) x hx w hw
      · rw [columnWord_eq]
        simp only [revHeads_append, revHeads_cons, tails_append, tails_cons]
        simp
      · intro k x hx
        rw [getD_mid] at hx
        rw [getD_mid]
        split at hx
        · rename_i hk; left; rw [if_pos hk]; exact hx
        · rename_i hk
          split at hx
          · rename_i hk'
            rw [if_neg hk, if_pos hk']
            by_cases hx1 : x ∈ b :: (p ++ (i + 1) :: q)
            · left; exact hx1
            · right
              have hx2 : x = i := by
                simp only [List.mem_cons, List.mem_append] at hx hx1; tauto
              exact ⟨hx2, by simp, Or.inl ⟨b, by simp, hb1⟩⟩
          · rename_i hk'; left; rw [if_neg hk, if_neg hk']; exact hx

/-! ### the first and the last of the two letters in a column -/

theorem IsCol.getD_lt {C : List (List Int)} (h : IsCol C) {k l : Nat} (hkl : k < l) {v w : Int} (hv : v ∈ C.getD k [])
    (hw : w ∈ C.getD l []) : v < w := by
  have hl : l < C.length := by
    by_contra hc
    rw [List.getD_eq_default _ _ (by omega)] at hw; simp at hw
  rw [List.getD_eq_getElem _ _ (by omega)] at hv
  rw [List.getD_eq_getElem _ _ hl] at hw
  exact List.pairwise_iff_getElem.1 h.2 k l _ _ hkl v hv w hw

theorem IsCol.getD_ne {C : List (List Int)} (h : IsCol C) {k : Nat} (hk : k < C.length) : ∃ v, v ∈ C.getD k [] := by
  rw [List.getD_eq_getElem _ _ hk]
  exact List.exists_mem_of_ne_nil _ (h.1 _ (List.getElem_mem hk)).1

theorem filter_head_split {l : List Int} {p : Int → Bool} {a : Int} (h : (l.filter p).head? = some a) :
    ∃ u v, l = u ++ a :: v ∧ u.filter p = [] ∧ p a = true := by
  induction l with
  | nil => simp at h
  | cons b l ih =>
    by_cases hb : p b = true
    · rw [List.filter_cons_of_pos hb] at h
      simp at h; subst h
      exact ⟨[], l, rfl, rfl, hb⟩
    · rw [List.filter_cons_of_neg hb] at h
      obtain ⟨u, v, rfl, h1, h2⟩ := ih h
      exact ⟨b :: u, v, rfl, by rw [List.filter_cons_of_neg hb, h1], h2⟩

theorem filter_last_split {l : List Int} {p : Int → Bool} {a : Int} (h : (l.filter p).getLast? = some a) :
    ∃ u v, l = u ++ a :: v ∧ v.filter p = [] ∧ p a = true := by
  induction l using List.reverseRecOn with
  | nil => simp at h
  | append_singleton l b ih =>
    by_cases hb : p b = true
    · rw [List.filter_append, List.filter_cons_of_pos hb] at h
      simp at h; subst h
      exact ⟨l, [], rfl, rfl, hb⟩
    · rw [List.filter_append, List.filter_cons_of_neg hb] at h
      simp only [List.filter_nil, List.append_nil] at h
      obtain ⟨u, v, rfl, h1, h2⟩ := ih h
      exact ⟨u, v ++ [b], by simp, by rw [List.filter_append, List.filter_cons_of_neg hb, h1]; rfl, h2⟩

theorem first_sig_i {i : Int} {C : List (List Int)} (hC : IsCol C) {k : Nat} (hi : i ∈ C.getD k []) (hj : i + 1 ∉ C.getD (k + 1) []) :
    (sig i (columnWord C)).head? = some i := by
  have hk : k < C.length := by
    by_contra hc
    rw [List.getD_eq_default _ _ (by omega)] at hi; simp at hi
  have hmem : i ∈ sig i (columnWord C) := by
    rw [sig, List.mem_filter, mem_columnWord]
    refine ⟨⟨C.getD k [], ?_, hi⟩, by simp⟩
    rw [List.getD_eq_getElem _ _ hk]; exact List.getElem_mem hk
  obtain ⟨a, ha⟩ : ∃ a, (sig i (columnWord C)).head? = some a := by
    cases hs : sig i (columnWord C) with
    | nil => rw [hs] at hmem; simp at hmem
    | cons a l => exact ⟨a, rfl⟩
  rw [ha]
  obtain ⟨u, v, h1, h2, h3⟩ := filter_head_split ha
  simp only [decide_eq_true_eq] at h3
  rcases h3 with rfl | rfl
  · rfl
  exfalso
  have hu : sig i u = [] := h2
  rw [sig_nil_iff] at hu
  -- the row of the letter `i + 1`
  have hrow : ∀ (A : List (List Int)) (B : List Int) (E : List (List Int)), C = A ++ B :: E → i + 1 ∈ B → A.length = k := by
    intro A B E he hB
    have hm : i + 1 ∈ C.getD A.length [] := by rw [he, getD_mid, if_neg (by omega), if_pos rfl]; exact hB
    rcases Nat.lt_trichotomy A.length k with h | h | h
    · have := hC.getD_lt h hm hi; omega
    · exact h
    · by_cases h' : A.length = k + 1
      · rw [h'] at hm; exact absurd hm hj
      · have hl : A.length < C.length := by rw [he]; simp
        obtain ⟨y, hy⟩ := hC.getD_ne (k := k + 1) (by omega)
        have h4 := hC.getD_lt (by omega : k < k + 1) hi hy
        have h5 := hC.getD_lt (by omega : k + 1 < A.length) hy hm
        omega
  rcases columnWord_split h1 (fun B hB => (hC.1 B hB).1) with ⟨A, q, E, e, e1, e2⟩ | ⟨A, b, p, q, E, e, e1, e2⟩
  · have hA := hrow A _ E e (by simp)
    rw [e, getD_mid, if_neg (by omega), if_pos hA.symm] at hi
    have hs := (hC.1 ((i + 1) :: q) (by rw [e]; simp)).2
    rcases List.mem_cons.1 hi with h | h
    · omega
    · have := (List.pairwise_cons.1 hs).1 _ h; omega
  · have hA := hrow A _ E e (by simp)
    rw [e, getD_mid, if_neg (by omega), if_pos hA.symm] at hi
    have hs := (hC.1 (b :: (p ++ (i + 1) :: q)) (by rw [e]; simp)).2
    have hs2 := List.pairwise_append.1 (List.pairwise_cons.1 hs).2
    apply hu.1
    rw [e1]
    rcases List.mem_cons.1 hi with h | h
    · rw [e, revHeads_append, revHeads_cons, h]; simp
    · rcases List.mem_append.1 h with h | h
      · simp [h]
      · rcases List.mem_cons.1 h with h | h
        · omega
        · have := (List.pairwise_cons.1 hs2.2.1).1 _ h; omega

theorem last_sig_j {i : Int} {C : List (List Int)} (hC : IsCol C) {k : Nat} (hi : i + 1 ∈ C.getD k [])
    (hj : ∀ l, l + 1 = k → i ∉ C.getD l []) : (sig i (columnWord C)).getLast? = some (i + 1) := by
  have hk : k < C.length := by
    by_contra hc
    rw [List.getD_eq_default _ _ (by omega)] at hi; simp at hi
  have hmem : i + 1 ∈ sig i (columnWord C) := by
    rw [sig, List.mem_filter, mem_columnWord]
    refine ⟨⟨C.getD k [], ?_, hi⟩, by simp⟩
    rw [List.getD_eq_getElem _ _ hk]; exact List.getElem_mem hk
  obtain ⟨a, ha⟩ : ∃ a, (sig i (columnWord C)).getLast? = some a :=
    ⟨_, List.getLast?_eq_some_getLast (List.ne_nil_of_mem hmem)⟩
  rw [ha]
  obtain ⟨u, v, h1, h2, h3⟩ := filter_last_split ha
  simp only [decide_eq_true_eq] at h3
  rcases h3 with rfl | rfl
  swap
  · rfl
  exfalso
  have hu : sig a v = [] := h2
  rw [sig_nil_iff] at hu
  have hrow : ∀ (A : List (List Int)) (B : List Int) (E : List (List Int)), C = A ++ B :: E → a ∈ B → A.length = k := by
    intro A B E he hB
    have hm : a ∈ C.getD A.length [] := by rw [he, getD_mid, if_neg (by omega), if_pos rfl]; exact hB
    rcases Nat.lt_trichotomy A.length k with h | h | h
    · by_cases h' : A.length + 1 = k
      · exact absurd hm (hj _ h')
      · obtain ⟨y, hy⟩ := hC.getD_ne (k := A.length + 1) (by omega)
        have h4 := hC.getD_lt (by omega : A.length < A.length + 1) hm hy
        have h5 := hC.getD_lt (by omega : A.length + 1 < k) hy hi
        omega
    · exact h
    · have := hC.getD_lt h hi hm; omega
  rcases columnWord_split h1 (fun B hB => (hC.1 B hB).1) with ⟨A, q, E, e, e1, e2⟩ | ⟨A, b, p, q, E, e, e1, e2⟩
  · have hA := hrow A _ E e (by simp)
    rw [e, getD_mid, if_neg (by omega), if_pos hA.symm] at hi
    apply hu.2
    rw [e2, e, tails_append, tails_cons]
    rcases List.mem_cons.1 hi with h | h
    · omega
    · simp [h]
  · have hA := hrow A _ E e (by simp)
    rw [e, getD_mid, if_neg (by omega), if_pos hA.symm] at hi
    have hs := (hC.1 (b :: (p ++ a :: q)) (by rw [e]; simp)).2
    have hs1 := List.pairwise_cons.1 hs
    have hs2 := List.pairwise_append.1 hs1.2
    apply hu.2
    rw [e2]
    rcases List.mem_cons.1 hi with h | h
    · have := hs1.1 a (by simp); omega
    · rcases List.mem_append.1 h with h | h
      · have := hs2.2.2 _ h a (by simp); omega
      · rcases List.mem_cons.1 h with h | h
        · omega
        · simp [h]

end Verif.Tab
