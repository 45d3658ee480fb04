import Verif.Lemmas.RimChain

/-! The counting functions `_KOG_count_helper` and `_KLG_count_helper` (tableaux.py:1089-1115, 1172-1209). -/

attribute [-simp] List.getD_eq_getElem?_getD

namespace Verif.Tableaux

open Verif.Partition Verif.Part

/-- The last boxes of a rim, as in partitions.py:496-503, when its boxes are listed from the north-east. -/
def termOf : List (Nat × Nat) → List (Nat × Nat)
  | [] => []
  | [c] => [c]
  | [c, d] => if touching d c = false then [c] else [d, c]
  | c :: d :: e :: _ => if touching d c = false then [c] else if touching e d = false then [d, c] else [e, d, c]

theorem rimTerminalPart_eq {rim cs : List (Nat × Nat)} (h : RimChain cs) (hp : rim.Perm cs) : rimTerminalPart rim = termOf cs := by
  have hs : rim.insertionSort (fun a b => b.1 < a.1 ∨ (a.1 = b.1 ∧ a.2 ≤ b.2)) = cs.reverse := rimSort_eq h hp
  rw [rimTerminalPart, hs]
  match cs with
  | [] => rfl
  | [c] => rfl
  | [c, d] =>
    have e : [c, d].reverse.drop ([c, d].reverse.length - 3) = [d, c] := rfl
    have g0 : [d, c].getD 0 (0, 0) = d := rfl
    have g1 : [d, c].getD 1 (0, 0) = c := rfl
    simp only [e, termOf, List.length_cons, List.length_nil]
    by_cases ht : touching d c = false
    · simp [ht, g0, g1]
    · simp [ht, g0, g1]
  | c :: d :: e :: es =>
    have e1 : (c :: d :: e :: es).reverse.drop ((c :: d :: e :: es).reverse.length - 3) = [e, d, c] := by
      rw [List.length_reverse, List.reverse_cons, List.reverse_cons, List.reverse_cons, List.append_assoc, List.append_assoc,
        List.drop_append_of_le_length (by simp), List.drop_eq_nil_of_le (by simp)]
      rfl
    have g0 : [e, d, c].getD 0 (0, 0) = e := rfl
    have g1 : [e, d, c].getD 1 (0, 0) = d := rfl
    have g2 : [e, d, c].getD 2 (0, 0) = c := rfl
    simp only [e1, termOf, List.length_cons, List.length_nil]
    by_cases ht : touching d c = false
    · simp [ht, g1, g2]
    · by_cases ht2 : touching e d = false
      · simp [ht, ht2, g0, g1, g2]
      · simp [ht, ht2, g0, g1, g2]

theorem touching_false {c d : Nat × Nat} : touching d c = false ↔ c.1 ≠ d.1 ∧ c.2 ≠ d.2 := by
  rw [touching]
  simp only [Bool.not_eq_false', Bool.and_eq_true, decide_eq_true_eq, ne_comm]

theorem touching_true {c d : Nat × Nat} : ¬ touching d c = false ↔ c.1 = d.1 ∨ c.2 = d.2 := by
  rw [touching_false]
  tauto

theorem left_one {rim cs : List (Nat × Nat)} {c : Nat × Nat} (h : RimChain (c :: cs)) (hp : rim.Perm (c :: cs)) :
    (rim.filter (fun a => decide (a ≠ c))).Perm cs := by
  have hn := h.nodup
  refine (hp.filter _).trans ?_
  rw [List.filter_cons, if_neg (by simp), List.filter_eq_self.2]
  intro a ha
  have := (List.nodup_cons.1 hn).1
  simp only [decide_eq_true_eq]
  rintro rfl
  exact this ha

theorem left_two {rim ds : List (Nat × Nat)} {c d : Nat × Nat} (h : RimChain (c :: d :: ds)) (hp : rim.Perm (c :: d :: ds)) :
    (rim.filter (fun a => decide (a ∉ [d, c]))).Perm ds := by
  have hn := h.nodup
  refine (hp.filter _).trans ?_
  rw [List.filter_cons, if_neg (by simp), List.filter_cons, if_neg (by simp), List.filter_eq_self.2]
  intro a ha
  rw [List.nodup_cons, List.nodup_cons] at hn
  simp only [decide_eq_true_eq, List.mem_cons, List.not_mem_nil, or_false, not_or]
  constructor
  · rintro rfl
    exact hn.2.1 ha
  · rintro rfl
    exact hn.1 (by simp [ha])

/-- The number of fillings of a rim, for any integer `p`. -/
def rimN (S : Letters) (cs : List (Nat × Nat)) (p : Int) : Int := if p < 0 then 0 else (rimWords S cs p.toNat).length

variable {S : Letters}

theorem rimN_nat (cs : List (Nat × Nat)) (p : Nat) : rimN S cs p = (rimWords S cs p).length := by
  rw [rimN, if_neg (by omega), Int.toNat_natCast]

theorem rimN_succ (cs : List (Nat × Nat)) (p : Nat) : rimN S cs ((p : Int) + 1) = (rimWords S cs (p + 1)).length := by
  rw [← rimN_nat]
  rfl

theorem rimN_neg (cs : List (Nat × Nat)) {p : Int} (hp : p < 0) : rimN S cs p = 0 := by
  rw [rimN, if_pos hp]

theorem rimN_cons_zero (c : Nat × Nat) (cs : List (Nat × Nat)) : (rimWords S (c :: cs) 0).length = 0 := rfl

theorem rimN_nil (p : Int) : rimN S [] p = if p = 0 then 1 else 0 := by
  rw [rimN]
  split
  · rw [if_neg (by omega)]
  · rcases Int.eq_ofNat_of_zero_le (by omega : 0 ≤ p) with ⟨n, rfl⟩
    cases n with
    | zero => rfl
    | succ n => rw [if_neg (by omega)]; rfl

/-- The boxes of a chain are apart or in the same row or column. -/
theorem apart_of {c d : Nat × Nat} {ds : List (Nat × Nat)} (ht : touching d c = false) : ∀ x ∈ (d :: ds).head?, c.1 ≠ x.1 ∧ c.2 ≠ x.2 := by
  intro x hx
  simp only [List.head?_cons, Option.mem_def, Option.some.injEq] at hx
  subst hx
  exact touching_false.1 ht

theorem row_column {c d : Nat × Nat} {ds : List (Nat × Nat)} (h : RimChain (c :: d :: ds)) (ht : c.1 = d.1 ∨ c.2 = d.2) :
    c.1 = d.1 ∨ (c.1 ≠ d.1 ∧ c.2 = d.2) := by
  have := (List.pairwise_cons.1 h.pw).1 d (by simp)
  by_cases e : c.1 = d.1
  · exact Or.inl e
  · exact Or.inr ⟨e, by tauto⟩

theorem kogCountAux_eq (fuel : Nat) : ∀ (p : Int) (rim cs : List (Nat × Nat)), RimChain cs → rim.Perm cs → rim.length < fuel →
    kogCountAux fuel p rim = some (rimN kogLetters cs p) := by
  induction fuel with
  | zero => intro p rim cs _ _ hf; omega
  | succ fuel ih =>
    intro p rim cs h hp hf
    rw [kogCountAux]
    match cs, h, hp with
    | [], h, hp =>
      have : rim = [] := hp.eq_nil
      subst this
      rw [List.length_nil, if_pos rfl, rimN_nil]
    | c :: cs, h, hp =>
      have hl : rim.length = cs.length + 1 := by rw [hp.length_eq, List.length_cons]
      rw [if_neg (by omega)]
      split
      · rename_i h0
        by_cases e : p = 0
        · rw [e]; rfl
        · rw [rimN_neg _ (by omega)]
      · rename_i h0
        obtain ⟨q, rfl⟩ : ∃ q : Nat, p = (q : Int) + 1 := ⟨(p - 1).toNat, by omega⟩
        have hleft := left_one h hp
        have hlen : (rim.filter (fun a => decide (a ≠ c))).length < fuel := by rw [hleft.length_eq]; omega
        have hx := ih ((q : Int) + 1) _ _ h.tail hleft hlen
        have hy := ih (q : Int) _ _ h.tail hleft hlen
        rw [rimN_succ] at hx ⊢
        rw [rimN_nat] at hy
        simp only [rimTerminalPart_eq h hp, Int.add_sub_cancel]
        have hap : (∀ x ∈ cs.head?, c.1 ≠ x.1 ∧ c.2 ≠ x.2) → termOf (c :: cs) = [c] := by
          intro hh
          match cs, hh with
          | [], _ => rfl
          | [d], hh => rw [termOf, if_pos (touching_false.2 (hh d rfl))]
          | d :: e :: es, hh => rw [termOf, if_pos (touching_false.2 (hh d rfl))]
        rw [length_rimWords]
        by_cases ha : ∀ x ∈ cs.head?, c.1 ≠ x.1 ∧ c.2 ≠ x.2
        · rw [hap ha]
          have hc := counts_apart (S := kogLetters) ha q
          simp only [List.length_singleton, Nat.sub_self, List.getD_cons_zero, show ¬ (1 : Nat) = 2 by omega, false_and, if_false, if_true, hx, hy, hc.1, hc.2]
          show some _ = some ((_ + if decide (q ≠ 0) = true then _ else 0 : Nat) : Int)
          congr 1
          by_cases e : q = 0
          · subst e
            simp
          · simp only [decide_eq_true_eq, if_pos e, show (q : Int) + 1 > 1 by omega, if_true]
            push_cast
            ring
        · match cs, h, hp, ha, hl, hleft, hlen, hx, hy with
          | [], h, hp, ha, hl, hleft, hlen, hx, hy => exact absurd (fun x hx => by simp at hx) ha
          | d :: ds, h, hp, ha, hl, hleft, hlen, hx, hy =>
            have ht : ¬ touching d c = false := fun ht => ha (apart_of ht)
            have hrc := row_column h (touching_true.1 ht)
            by_cases ha2 : ∀ x ∈ ds.head?, d.1 ≠ x.1 ∧ d.2 ≠ x.2
            · have hterm : termOf (c :: d :: ds) = [d, c] := by
                match ds, ha2 with
                | [], _ => rw [termOf, if_neg ht]
                | e :: es, ha2 => rw [termOf, if_neg ht, if_pos (touching_false.2 (ha2 e rfl))]
              rw [hterm]
              simp only [List.length_cons, List.length_nil, Nat.zero_add, Nat.reduceAdd, true_and, if_true]
              have hleft2 := left_two h hp
              have hlen2 : (rim.filter (fun a => decide (a ∉ [d, c]))).length < fuel := by
                rw [hleft2.length_eq]; simp only [List.length_cons] at hl; omega
              have hx2 := ih ((q : Int) + 1) _ _ h.tail.tail hleft2 hlen2
              have hy2 := ih (q : Int) _ _ h.tail.tail hleft2 hlen2
              have hz2 := ih ((q : Int) + 1 - 2) _ _ h.tail.tail hleft2 hlen2
              rw [rimN_succ] at hx2
              rw [rimN_nat] at hy2
              have hd := counts_apart (S := kogLetters) ha2 q
              have hN : (hiCount kogLetters c (d :: ds) q : Int) + loCount kogLetters c (d :: ds) q =
                  if q = 0 then 0 else hiCount kogLetters d ds q + (rimWords kogLetters (d :: ds) q).length := by
                rcases hrc with hrc | ⟨hrc1, hrc2⟩
                · rw [(counts_row kogLetters_laws hrc q).1, (counts_row kogLetters_laws hrc q).2, hd.1, hd.2]
                  show ((((if decide (q ≠ 0) = true then _ else 0) + _ : Nat) : Int)) + ((0 : Nat) : Int) = _
                  by_cases e : q = 0
                  · subst e; simp [rimN_cons_zero]
                  · simp [e]
                · rw [(counts_column kogLetters_laws hrc1 hrc2 q).1, (counts_column kogLetters_laws hrc1 hrc2 q).2]
                  show ((0 : Nat) : Int) + (((if decide (q ≠ 0) = true then _ else 0 : Nat) : Int)) = _
                  by_cases e : q = 0
                  · subst e; simp
                  · simp [e]
              push_cast
              rw [hN]
              by_cases e : q = 0
              · subst e
                simp
              · rw [if_neg (by omega), if_neg e]
                simp only [hx2, hy2, hz2]
                congr 1
                obtain ⟨r, rfl⟩ : ∃ r, q = r + 1 := ⟨q - 1, by omega⟩
                rw [show ((r + 1 : Nat) : Int) + 1 - 2 = (r : Int) by push_cast; ring, rimN_nat]
                have hd' := counts_apart (S := kogLetters) ha2 r
                rw [hd.1, length_rimWords, hd'.1, hd'.2]
                show _ = (((_ + (_ + (if decide (r ≠ 0) = true then _ else 0)) : Nat) : Int))
                by_cases e2 : r = 0
                · subst e2
                  simp
                  ring
                · simp only [decide_eq_true_eq, if_pos e2, show ((r + 1 : Nat) : Int) + 1 > 2 by omega, if_true]
                  push_cast
                  ring
            · match ds, h, hp, ha, ha2, hl, hleft, hlen, hx, hy, hrc with
              | [], h, hp, ha, ha2, hl, hleft, hlen, hx, hy, hrc => exact absurd (fun x hx => by simp at hx) ha2
              | e :: es, h, hp, ha, ha2, hl, hleft, hlen, hx, hy, hrc =>
                have ht2 : ¬ touching e d = false := fun ht => ha2 (apart_of ht)
                have hrc2 := row_column h.tail (touching_true.1 ht2)
                have hterm : termOf (c :: d :: e :: es) = [e, d, c] := by rw [termOf, if_neg ht, if_neg ht2]
                rw [hterm]
                simp only [List.length_cons, List.length_nil, Nat.zero_add, Nat.reduceAdd, show ¬ (3 : Nat) = 2 by omega, false_and, if_false,
                  show ¬ (3 : Nat) = 1 by omega, true_and, Nat.reduceSub, List.getD_cons_succ, List.getD_cons_zero, hx, hy, if_true]
                have hde := (List.isChain_cons_cons.1 h.tail.adj).1
                have hcd := (List.isChain_cons_cons.1 h.adj).1
                have hA := length_rimWords (S := kogLetters) d (e :: es) q
                rcases hrc with hrc | ⟨hrc, hrc'⟩
                · have h1 := counts_row kogLetters_laws (ds := e :: es) hrc q
                  rw [h1.1, h1.2]
                  rcases hrc2 with hr2 | ⟨hr2, hr2'⟩
                  · have h2 := counts_row kogLetters_laws (ds := es) hr2 q
                    rw [if_neg (touching_true.2 (Or.inl (by omega))), h2.2]
                    simp
                  · have h2 := counts_column kogLetters_laws (ds := es) hr2 hr2' q
                    rw [if_pos (touching_false.2 ⟨by omega, by omega⟩), hA, h2.1]
                    push_cast
                    ring_nf
                · have h1 := counts_column kogLetters_laws (ds := e :: es) hrc hrc' q
                  rw [h1.1, h1.2]
                  show _ = some (((0 + if decide (q ≠ 0) = true then _ else 0 : Nat)) : Int)
                  rcases hrc2 with hr2 | ⟨hr2, hr2'⟩
                  · have h2 := counts_row kogLetters_laws (ds := es) hr2 q
                    rw [if_pos (touching_false.2 ⟨by omega, by omega⟩), hA, h2.2]
                    by_cases e2 : q = 0
                    · subst e2
                      rw [h2.1, loCount, if_neg (by show ¬ decide ((0 : Nat) ≠ 0) = true; simp)]
                      simp [rimN_cons_zero]
                    · simp [e2]
                  · have h2 := counts_column kogLetters_laws (ds := es) hr2 hr2' q
                    rw [if_neg (touching_true.2 (Or.inr (by omega))), h2.1]
                    by_cases e2 : q = 0
                    · subst e2
                      simp [rimN_cons_zero]
                    · simp [e2]

theorem klgCountAux_eq (fuel : Nat) : ∀ (p : Int) (rim cs : List (Nat × Nat)), RimChain cs → rim.Perm cs → rim.length < fuel →
    klgCountAux fuel p rim = some (rimN klgLetters cs p) := by
  induction fuel with
  | zero => intro p rim cs _ _ hf; omega
  | succ fuel ih =>
    intro p rim cs h hp hf
    rw [klgCountAux]
    match cs, h, hp with
    | [], h, hp =>
      have : rim = [] := hp.eq_nil
      subst this
      rw [List.length_nil, if_pos rfl, rimN_nil]
    | c :: cs, h, hp =>
      have hl : rim.length = cs.length + 1 := by rw [hp.length_eq, List.length_cons]
      rw [if_neg (by omega)]
      split
      · rename_i h0
        by_cases e : p = 0
        · rw [e]; rfl
        · rw [rimN_neg _ (by omega)]
      · rename_i h0
        obtain ⟨q, rfl⟩ : ∃ q : Nat, p = (q : Int) + 1 := ⟨(p - 1).toNat, by omega⟩
        have hleft := left_one h hp
        have hlen : (rim.filter (fun a => decide (a ≠ c))).length < fuel := by rw [hleft.length_eq]; omega
        have hx := ih ((q : Int) + 1) _ _ h.tail hleft hlen
        have hy := ih (q : Int) _ _ h.tail hleft hlen
        rw [rimN_succ] at hx ⊢
        rw [rimN_nat] at hy
        simp only [rimTerminalPart_eq h hp, Int.add_sub_cancel]
        have hap : (∀ x ∈ cs.head?, c.1 ≠ x.1 ∧ c.2 ≠ x.2) → termOf (c :: cs) = [c] := by
          intro hh
          match cs, hh with
          | [], _ => rfl
          | [d], hh => rw [termOf, if_pos (touching_false.2 (hh d rfl))]
          | d :: e :: es, hh => rw [termOf, if_pos (touching_false.2 (hh d rfl))]
        rw [length_rimWords]
        have hallow : ∀ b q, klgLetters.allow b q = decide (b.1 ≠ b.2) := fun _ _ => rfl
        by_cases ha : ∀ x ∈ cs.head?, c.1 ≠ x.1 ∧ c.2 ≠ x.2
        · rw [hap ha]
          have hc := counts_apart (S := klgLetters) ha q
          simp only [List.length_singleton, Nat.sub_self, List.getD_cons_zero, show ¬ (1 : Nat) = 2 by omega, if_false, if_true, hx, hy,
            hc.1, hc.2, hallow, decide_eq_true_eq]
          by_cases e : c.1 = c.2
          · have hcs : cs = [] := by
              match cs, h with
              | [], _ => rfl
              | d :: ds, h => exact absurd e (List.isChain_cons_cons.1 h.adj).1.2.2
            subst hcs
            simp only [if_neg (show ¬ c.1 ≠ c.2 from fun hh => hh e)]
            by_cases e2 : q = 0
            · subst e2
              rw [if_pos ⟨rfl, e⟩]
              rfl
            · obtain ⟨r, rfl⟩ : ∃ r, q = r + 1 := ⟨q - 1, by omega⟩
              rw [if_neg (by push_cast; omega)]
              simp [rimWords]
          · rw [if_neg (fun hh => e hh.2), if_pos e]
            congr 1
            push_cast
            ring
        · match cs, h, hp, ha, hl, hleft, hlen, hx, hy with
          | [], h, hp, ha, hl, hleft, hlen, hx, hy => exact absurd (fun x hx => by simp at hx) ha
          | d :: ds, h, hp, ha, hl, hleft, hlen, hx, hy =>
            have ht : ¬ touching d c = false := fun ht => ha (apart_of ht)
            have hrc := row_column h (touching_true.1 ht)
            have hcd := (List.isChain_cons_cons.1 h.adj).1
            have hcn : klgLetters.allow c q = true := by rw [hallow, decide_eq_true_eq]; exact hcd.2.2
            by_cases ha2 : ∀ x ∈ ds.head?, d.1 ≠ x.1 ∧ d.2 ≠ x.2
            · have hterm : termOf (c :: d :: ds) = [d, c] := by
                match ds, ha2 with
                | [], _ => rw [termOf, if_neg ht]
                | e :: es, ha2 => rw [termOf, if_neg ht, if_pos (touching_false.2 (ha2 e rfl))]
              rw [hterm]
              have g1 : [d, c].getD 1 (0, 0) = c := rfl
              simp only [List.length_cons, List.length_nil, Nat.zero_add, Nat.reduceAdd, if_true, List.getD_cons_zero, g1]
              have hleft2 := left_two h hp
              have hlen2 : (rim.filter (fun a => decide (a ∉ [d, c]))).length < fuel := by
                rw [hleft2.length_eq]; simp only [List.length_cons] at hl; omega
              have hx2 := ih ((q : Int) + 1) _ _ h.tail.tail hleft2 hlen2
              have hy2 := ih (q : Int) _ _ h.tail.tail hleft2 hlen2
              have hz2 := ih ((q : Int) + 1 - 2) _ _ h.tail.tail hleft2 hlen2
              rw [rimN_succ] at hx2
              rw [rimN_nat] at hy2
              simp only [hx2, hy2, hz2]
              have hd := fun q => counts_apart (S := klgLetters) ha2 q
              simp only [hallow, decide_eq_true_eq] at hd
              by_cases e : d.1 = d.2
              · have hds : ds = [] := by
                  match ds, h with
                  | [], _ => rfl
                  | d' :: ds', h => exact absurd e (List.isChain_cons_cons.1 h.tail.adj).1.2.2
                subst hds
                simp only [if_neg (show ¬ d.1 ≠ d.2 from fun hh => hh e)] at hd
                have hN : hiCount klgLetters c [d] q + loCount klgLetters c [d] q =
                    (if c.1 = d.1 then 0 else (rimWords klgLetters [] q).length) + (rimWords klgLetters [d] q).length := by
                  rcases hrc with hrc | ⟨hrc1, hrc2⟩
                  · rw [(counts_row klgLetters_laws hrc q).1, (counts_row klgLetters_laws hrc q).2, (hd q).2, if_pos hrc]
                    rfl
                  · rw [(counts_column klgLetters_laws hrc1 hrc2 q).1, (counts_column klgLetters_laws hrc1 hrc2 q).2, if_pos hcn, (hd q).1,
                      if_neg hrc1]
                    simp [rimWords]
                rw [hN]
                match q with
                | 0 =>
                  rw [if_neg (by simp), if_neg (by simp), if_neg (by simp), if_pos (by simp)]
                  rcases hrc with hrc | ⟨hrc1, hrc2⟩
                  · rw [if_pos ⟨e, by omega⟩, if_pos hrc]
                    rfl
                  · rw [if_neg (by omega), if_pos ⟨e, by omega⟩, if_neg hrc1]
                    rfl
                | 1 =>
                  rw [if_neg (by simp), if_pos ⟨by simp, e⟩, length_rimWords, (hd 0).1, (hd 0).2]
                  split <;> simp [rimWords]
                | r + 2 =>
                  rw [if_pos (by push_cast; omega), length_rimWords, (hd (r + 1)).1, (hd (r + 1)).2, rimN_nil, if_neg (by push_cast; omega)]
                  split <;> simp [rimWords]
              · simp only [if_pos (show d.1 ≠ d.2 from e)] at hd
                have hN : hiCount klgLetters c (d :: ds) q + loCount klgLetters c (d :: ds) q =
                    hiCount klgLetters d ds q + (rimWords klgLetters (d :: ds) q).length := by
                  rcases hrc with hrc | ⟨hrc1, hrc2⟩
                  · rw [(counts_row klgLetters_laws hrc q).1, (counts_row klgLetters_laws hrc q).2, (hd q).1, (hd q).2]
                    rfl
                  · rw [(counts_column klgLetters_laws hrc1 hrc2 q).1, (counts_column klgLetters_laws hrc1 hrc2 q).2, if_pos hcn]
                    omega
                rw [hN, (hd q).1]
                simp only [e, false_and, and_false, if_false]
                match q with
                | 0 =>
                  rw [if_neg (by simp), if_neg (by simp), if_pos (by simp)]
                  simp [rimN_cons_zero]
                | r + 1 =>
                  rw [length_rimWords, (hd r).1, (hd r).2, show ((r + 1 : Nat) : Int) + 1 - 2 = (r : Int) by push_cast; ring, rimN_nat]
                  have e3 : ∀ X : Option Int, (if ((r + 1 : Nat) : Int) + 1 > 2 then X else if ((r + 1 : Nat) : Int) + 1 = 2 then X else
                      if ((r + 1 : Nat) : Int) + 1 = 1 then some (((rimWords klgLetters ds (r + 1 + 1)).length : Int) + (rimWords klgLetters ds (r + 1)).length)
                        else none) = X := by
                    intro X
                    by_cases e4 : ((r + 1 : Nat) : Int) + 1 > 2
                    · rw [if_pos e4]
                    · rw [if_neg e4, if_pos (by push_cast at e4 ⊢; omega)]
                  rw [e3]
                  congr 1
                  push_cast
                  ring
            · match ds, h, hp, ha, ha2, hl, hleft, hlen, hx, hy, hrc, hcd with
              | [], h, hp, ha, ha2, hl, hleft, hlen, hx, hy, hrc, hcd => exact absurd (fun x hx => by simp at hx) ha2
              | e :: es, h, hp, ha, ha2, hl, hleft, hlen, hx, hy, hrc, hcd =>
                have ht2 : ¬ touching e d = false := fun ht => ha2 (apart_of ht)
                have hrc2 := row_column h.tail (touching_true.1 ht2)
                have hterm : termOf (c :: d :: e :: es) = [e, d, c] := by rw [termOf, if_neg ht, if_neg ht2]
                rw [hterm]
                simp only [List.length_cons, List.length_nil, Nat.zero_add, Nat.reduceAdd, show ¬ (3 : Nat) = 2 by omega, if_false,
                  show ¬ (3 : Nat) = 1 by omega, true_and, Nat.reduceSub, List.getD_cons_succ, List.getD_cons_zero, hx, hy, if_true]
                have hde := (List.isChain_cons_cons.1 h.tail.adj).1
                have hA := length_rimWords (S := klgLetters) d (e :: es) q
                rcases hrc with hrc | ⟨hrc, hrc'⟩
                · have h1 := counts_row klgLetters_laws (ds := e :: es) hrc q
                  rw [h1.1, h1.2]
                  rcases hrc2 with hr2 | ⟨hr2, hr2'⟩
                  · have h2 := counts_row klgLetters_laws (ds := es) hr2 q
                    rw [if_neg (touching_true.2 (Or.inl (by omega))), h2.2]
                    simp
                  · have h2 := counts_column klgLetters_laws (ds := es) hr2 hr2' q
                    rw [if_pos (touching_false.2 ⟨by omega, by omega⟩), hA, h2.1]
                    push_cast
                    ring_nf
                · have h1 := counts_column klgLetters_laws (ds := e :: es) hrc hrc' q
                  rw [h1.1, h1.2, if_pos hcn]
                  rcases hrc2 with hr2 | ⟨hr2, hr2'⟩
                  · have h2 := counts_row klgLetters_laws (ds := es) hr2 q
                    rw [if_pos (touching_false.2 ⟨by omega, by omega⟩), hA, h2.2]
                    simp
                  · have h2 := counts_column klgLetters_laws (ds := es) hr2 hr2' q
                    rw [if_neg (touching_true.2 (Or.inr (by omega))), h2.1]
                    simp

end Verif.Tableaux
