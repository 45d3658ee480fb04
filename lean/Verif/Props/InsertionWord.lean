import Verif.Lemmas.InsertionWord
import Verif.Lemmas.HeckeActions
import Verif.Props.ReadingWords
import Verif.Props.InsertionTableaux

/-! Property C89: Hecke insertion does not change the Demazure product (insertion.py). -/

namespace Verif.Insertion

open Tab Verif.Part Verif.Words Verif.Perm Verif.PermSpec

attribute [-simp] List.getD_eq_getElem?_getD

/-! ## The row reading word -/

/-- The boxes of the rows `n, ..., 1`, from left to right. -/
def rowBoxes (lam : Nat → Nat) (f : Nat → Nat → Int) : Nat → List ((Nat × Nat) × List Int)
  | 0 => []
  | n + 1 => (List.range (lam (n + 1))).map (fun j => ((n + 1, j + 1), [f (n + 1) (j + 1)])) ++ rowBoxes lam f n

theorem mem_rowBoxes {lam : Nat → Nat} {f : Nat → Nat → Int} {b : Nat × Nat} {s : List Int} : ∀ {n},
    (b, s) ∈ rowBoxes lam f n ↔ b.1 ≤ n ∧ 1 ≤ b.1 ∧ 1 ≤ b.2 ∧ b.2 ≤ lam b.1 ∧ s = [f b.1 b.2]
  | 0 => by simp only [rowBoxes, List.not_mem_nil, false_iff]; omega
  | n + 1 => by
    rw [rowBoxes, List.mem_append, mem_rowBoxes (n := n), List.mem_map]
    constructor
    · rintro (⟨j, hj, he⟩ | h)
      · rw [List.mem_range] at hj
        cases he
        exact ⟨le_refl _, by simp, by simp, hj, rfl⟩
      · exact ⟨by omega, h.2⟩
    · rintro ⟨h1, h2, h3, h4, h5⟩
      by_cases hb : b.1 = n + 1
      · left
        refine ⟨b.2 - 1, by rw [List.mem_range, ← hb]; omega, ?_⟩
        rw [h5, ← hb, show b.2 - 1 + 1 = b.2 by omega]
      · right; exact ⟨by omega, h2, h3, h4, h5⟩

theorem rowBoxes_sorted {lam : Nat → Nat} {f : Nat → Nat → Int} : ∀ n, (rowBoxes lam f n).Pairwise RowLt
  | 0 => List.Pairwise.nil
  | n + 1 => by
    rw [rowBoxes, List.pairwise_append]
    refine ⟨?_, rowBoxes_sorted n, ?_⟩
    · rw [List.pairwise_map]
      exact (List.pairwise_lt_range).imp (fun h => by simp only [RowLt, true_and, lt_irrefl, false_or]; omega)
    · rintro p hp ⟨b, s⟩ hb
      rw [List.mem_map] at hp
      obtain ⟨j, _, rfl⟩ := hp
      have := (mem_rowBoxes.1 hb).1
      simp only [RowLt]
      omega

theorem rowBoxes_word (lam : Nat → Nat) (f : Nat → Nat → Int) : ∀ n, (rowBoxes lam f n).flatMap Prod.snd = rowsW lam f 0 n
  | 0 => rfl
  | n + 1 => by
    rw [rowBoxes, rowsW, List.flatMap_append, rowBoxes_word lam f n, Nat.zero_add, rowW, List.flatMap_map]
    congr 1
    induction lam (n + 1) with
    | zero => rfl
    | succ m ih => rw [List.range_succ, List.flatMap_append, ih]; simp

theorem reading_inc {T : Tab} {lam : Nat → Nat} {f : Nat → Nat → Int} (h : Inc T lam f) {M : Nat} (hM : T.maxRow ≤ M) :
    rowReadingWord T = rowsW lam f 0 M := by
  rw [← rowBoxes_word]
  apply rowReadingWord_of (rowBoxes_sorted M)
  rintro ⟨i, j⟩ s
  rw [mem_rowBoxes, h.get]
  dsimp only
  constructor
  · rintro ⟨h1, h2, h3, h4, rfl⟩; rw [if_pos ⟨h2, h3, h4⟩]
  · intro hs
    split at hs
    · rename_i hc
      cases hs
      have := h.le_maxRow hc.1 (by omega)
      exact ⟨by omega, hc.1, hc.2.1, hc.2.2, rfl⟩
    · cases hs

theorem pushAll_word (w : List Int) : (∀ a ∈ w, 0 < a) → ∀ {p q : Tab}, pushAll (Tab.empty, Tab.empty) w = some (p, q) →
    HeckeEquiv w (rowReadingWord p) := by
  suffices h : (∀ a ∈ w, 0 < a) → ∀ {p q : Tab}, pushAll (Tab.empty, Tab.empty) w = some (p, q) →
      ∃ lam f, Inc p lam f ∧ ∃ M0, ∀ M, M0 ≤ M → HeckeEquiv w (rowsW lam f 0 M) by
    intro hw p q hp
    obtain ⟨lam, f, h1, M0, h2⟩ := h hw hp
    rw [reading_inc h1 (le_max_right M0 _)]
    exact h2 _ (le_max_left _ _)
  induction w using List.reverseRecOn with
  | nil =>
    intro _ p q h
    simp only [pushAll, List.foldlM_nil] at h
    cases h
    obtain ⟨lam, f, h1, h2⟩ := good_empty
    refine ⟨lam, f, h1, 0, fun M hM => ?_⟩
    rw [← reading_inc h1 hM]
    exact HeckeEquiv.refl _
  | append_singleton w a ih =>
    intro hw p' q' h
    obtain ⟨p, q, lam0, f0, β, hd⟩ := done_exists w (fun x hx => hw x (by simp [hx]))
    obtain ⟨lam, f, h1, M0, h2⟩ := ih (fun x hx => hw x (by simp [hx])) hd.run
    have h0 := hd.run
    unfold pushAll at h h0
    rw [List.foldlM_append, h0] at h
    simp only [Option.bind_eq_bind, Option.bind_some, List.foldlM_cons, List.foldlM_nil] at h
    have hp : push p q a = some (p', q') := by
      cases hpq : push p q a with
      | none => rw [hpq] at h; cases h
      | some r => rw [hpq] at h; exact h
    obtain ⟨lam', F, g1, M1, g2⟩ := push_word h1 (hw a (by simp)) hp
    refine ⟨lam', F, g1, max M0 M1, fun M hM => ?_⟩
    exact HeckeEquiv.trans (HeckeEquiv.right [a] (h2 M (by omega))) (g2 M (by omega))

/-! ## The Demazure product -/

theorem heckeEquiv_act {u v : List Int} (h : HeckeEquiv u v) : (∀ a, a ∈ u ↔ a ∈ v) ∧ ((∀ a ∈ u, 0 < a) → ∀ x : SPerm,
    (u.map Int.toNat).foldl act x = (v.map Int.toNat).foldl act x) := by
  induction h with
  | refl u => exact ⟨fun _ => Iff.rfl, fun _ _ => rfl⟩
  | symm h ih => exact ⟨fun a => (ih.1 a).symm, fun hp x => (ih.2 (fun a ha => hp a ((ih.1 a).1 ha)) x).symm⟩
  | trans h h' ih ih' =>
    exact ⟨fun a => (ih.1 a).trans (ih'.1 a), fun hp x => (ih.2 hp x).trans (ih'.2 (fun a ha => hp a ((ih.1 a).2 ha)) x)⟩
  | context p s h ih =>
    refine ⟨fun a => by simp only [List.mem_append, ih.1 a], fun hp x => ?_⟩
    simp only [List.map_append, List.foldl_append]
    rw [ih.2 (fun a ha => hp a (by simp [ha]))]
  | idem a =>
    refine ⟨fun b => by simp, fun _ x => ?_⟩
    simp only [List.map_cons, List.map_nil, List.foldl_cons, List.foldl_nil]
    exact act_act x _
  | @comm a b h =>
    refine ⟨fun c => by simp [or_comm], fun hp x => ?_⟩
    simp only [List.map_cons, List.map_nil, List.foldl_cons, List.foldl_nil]
    have := hp a (by simp)
    exact act_far (by omega) x
  | braid a =>
    refine ⟨fun c => by simp; tauto, fun hp x => ?_⟩
    have ha := hp a (by simp)
    simp only [List.map_cons, List.map_nil, List.foldl_cons, List.foldl_nil]
    rw [show (a + 1).toNat = a.toNat + 1 by omega]
    exact act_near (by omega) x

theorem heckeEquiv_demazure {u v : List Int} (h : HeckeEquiv u v) (hu : ∀ a ∈ u, 0 < a) :
    demazure (u.map Int.toNat) = demazure (v.map Int.toNat) := by
  rw [← demazure_eq, ← demazure_eq]
  exact (heckeEquiv_act h).2 hu _

theorem hecke_first {C : HCache} (hC : Sound C) {w : List Int} {record : Option (List Int)} {m : Bool} {p q : Tab}
    (h : (hecke C w record m).1 = some (p, q)) : ∃ q0, pushAll (Tab.empty, Tab.empty) w = some (if m then p else p.transpose, q0) := by
  have hi := insertAll_spec w hC Tab.empty Tab.empty
  rw [hecke] at h
  cases hc : checkRecord w record m with
  | none => rw [hc] at h; cases h
  | some rec =>
    rw [hc] at h
    simp only at h
    rcases hins : insertionTableaux C w with ⟨o, C'⟩
    rw [← insertionTableaux, hins] at hi
    rw [hins] at h
    simp only at hi
    rw [← hi.1]
    cases o with
    | none => cases h
    | some r =>
      obtain ⟨p0, q0⟩ := r
      simp only at h
      refine ⟨q0, ?_⟩
      cases m with
      | true =>
        simp only [if_true] at h ⊢
        rw [Option.map_eq_some_iff] at h
        obtain ⟨_, _, h⟩ := h
        cases h
        rfl
      | false =>
        simp only [Bool.false_eq_true, if_false] at h ⊢
        rw [Option.map_eq_some_iff] at h
        obtain ⟨_, _, h⟩ := h
        cases h
        rw [transpose_transpose]

/-- C89: a word in positive integers can be turned into the row reading word of its insertion tableau (in the second version,
into the reverse of its column reading word) by the relations of the 0-Hecke monoid. -/
theorem C89_reading_word {C : HCache} (hC : Sound C) {w : List Int} (hw : ∀ a ∈ w, 0 < a) {record : Option (List Int)} {p q : Tab} :
    ((hecke C w record true).1 = some (p, q) → HeckeEquiv w (rowReadingWord p)) ∧
    ((hecke C w record false).1 = some (p, q) → HeckeEquiv w (columnReadingWord p).reverse) := by
  constructor
  · intro h
    obtain ⟨q0, h0⟩ := hecke_first hC h
    exact pushAll_word w hw h0
  · intro h
    obtain ⟨q0, h0⟩ := hecke_first hC h
    simp only [Bool.false_eq_true, if_false] at h0
    have h1 : ∃ f, IsFilling {b | p.get? b ≠ none} f p.get? := by
      obtain ⟨p1, q1, lam, f, β, hd⟩ := done_exists w hw
      have := hd.run
      rw [h0] at this
      cases this
      refine ⟨fun b => f b.2 b.1, ?_⟩
      have hget : ∀ i j, p.get? (i, j) = if 1 ≤ j ∧ 1 ≤ i ∧ i ≤ lam j then some [f j i] else none := by
        intro i j
        rw [← hd.inc.get j i, get?_transpose]
      rintro ⟨i, j⟩
      constructor
      · intro hb
        simp only [Set.mem_ofPred_eq] at hb
        rw [hget] at hb ⊢
        split at hb
        · rename_i hc; rw [if_pos hc]
        · exact absurd rfl hb
      · intro hb
        simpa using hb
    obtain ⟨f, hf⟩ := h1
    rw [C76_columns hf, List.reverse_reverse]
    exact pushAll_word w hw h0

/-- C89: the Demazure product of a word in positive integers is that of the reading word of its insertion tableau. -/
theorem C89_demazure {C : HCache} (hC : Sound C) {w : List Int} (hw : ∀ a ∈ w, 0 < a) {record : Option (List Int)} {p q : Tab} :
    ((hecke C w record true).1 = some (p, q) → demazure (w.map Int.toNat) = demazure ((rowReadingWord p).map Int.toNat)) ∧
    ((hecke C w record false).1 = some (p, q) →
      demazure (w.map Int.toNat) = demazure (((columnReadingWord p).reverse).map Int.toNat)) :=
  ⟨fun h => heckeEquiv_demazure ((C89_reading_word hC hw).1 h) hw, fun h => heckeEquiv_demazure ((C89_reading_word hC hw).2 h) hw⟩

/-- C89: words with the same insertion tableau are Hecke words of the same permutation. -/
theorem C89_same {C C' : HCache} (hC : Sound C) (hC' : Sound C') {w w' : List Int} (hw : ∀ a ∈ w, 0 < a) (hw' : ∀ a ∈ w', 0 < a)
    {record record' : Option (List Int)} {m : Bool} {p q q' : Tab} (h : (hecke C w record m).1 = some (p, q))
    (h' : (hecke C' w' record' m).1 = some (p, q')) : demazure (w.map Int.toNat) = demazure (w'.map Int.toNat) := by
  cases m with
  | true => rw [(C89_demazure hC hw).1 h, (C89_demazure hC' hw').1 h']
  | false => rw [(C89_demazure hC hw).2 h, (C89_demazure hC' hw').2 h']

example : (hecke Dict.empty [2, 1, 2, 2, 1, 3] none true).1.map (fun r => rowReadingWord r.1) = some [2, 1, 2, 3] ∧
    (hecke Dict.empty [2, 1, 2, 2, 1, 3] none false).1.map (fun r => (columnReadingWord r.1).reverse) = some [2, 1, 2, 3] := by
  decide +kernel

end Verif.Insertion
