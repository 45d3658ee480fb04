import Verif.Lemmas.RimCount

/-!
# C83 to C87: rims, KOG tableaux and KLG tableaux (partitions.py:458-503, tableaux.py:1025-1224)
-/

attribute [-simp] List.getD_eq_getElem?_getD

namespace Verif.Tableaux

open Verif.Partition Verif.Part

variable {mu : List Nat}

/-! ## C83 -/

/-- C83: `rims(mu, b)` yields, each exactly once and as a sorted tuple, the sets of boxes `nu / mu` that are rims whose first row
has at most `b` boxes. -/
theorem C83_rims (h : IsStrict mu) (b : Nat) : ∃ L, rims? mu b = some L ∧ L.Nodup ∧
    ∀ s, s ∈ L ↔ s.Pairwise boxLt ∧ ∃ nu, IsRim mu nu ∧ nu.getD 0 0 ≤ mu.getD 0 0 + b ∧
      ∀ x, x ∈ s ↔ x ∈ ShiftedDiagram nu \ ShiftedDiagram mu := rims?_spec h b

/-- C83: a trailing zero is ignored. -/
theorem C83_rims_trailing_zero (h : IsStrict mu) (b : Nat) : rims? (mu ++ [0]) b = rims? mu b := by
  have e : trim (mu ++ [0]) = mu := by
    have : trim (mu ++ [0]) = trim mu := by
      rw [trim, trim, List.reverse_append]
      rfl
    rw [this, trim_of_pos h.2]
  have hs : (mu ++ [0]).Pairwise (· > ·) := by
    rw [List.pairwise_append]
    exact ⟨h.1, by simp, fun a ha b hb => by rw [List.mem_singleton.1 hb]; exact h.2 a ha⟩
  rw [rims?, rims?, if_pos ((isStrictPartition_iff _).2 hs), if_pos ((isStrictPartition_iff _).2 h.1), e, trim_of_pos h.2]
  congr 2
  rw [border, border, e, trim_of_pos h.2]

/-- C83: anything that is not strictly decreasing raises. -/
theorem C83_rims_raises (h : ¬ mu.Pairwise (· > ·)) (b : Nat) : rims? mu b = none := by
  rw [rims?, if_neg (fun hh => h ((isStrictPartition_iff _).1 hh))]

theorem isStrict31 : IsStrict [3, 1] := ⟨by decide, by decide⟩

theorem isRim31 : IsRim [3, 1] [4, 3] := by
  refine ⟨⟨by decide, by decide⟩, ?_, ?_⟩
  · refine shiftedDiagram_subset.2 (fun t => ?_)
    match t with
    | 0 => decide
    | 1 => decide
    | t + 2 => simp [List.getD]
  · rintro i j ⟨h1, h2⟩
    rw [mem_rim] at h1 h2
    match i with
    | 0 => omega
    | 1 => simp [List.getD] at h1 h2; omega
    | 2 => simp [List.getD] at h1 h2; omega
    | i + 3 => simp [List.getD] at h1 h2; omega

example : rims? [3, 1] 1 = some [[], [(1, 4)], [(2, 3)], [(1, 4), (2, 3)], [(1, 4), (2, 3), (2, 4)],
    [(2, 3), (3, 3)], [(1, 4), (2, 3), (3, 3)], [(1, 4), (2, 3), (2, 4), (3, 3)]] := by decide +kernel

example : ∃ L, rims? [3, 1] 1 = some L ∧ [(1, 4), (2, 3), (2, 4)] ∈ L := by
  obtain ⟨L, h1, _, h3⟩ := C83_rims isStrict31 1
  refine ⟨L, h1, (h3 _).2 ⟨by decide, [4, 3], isRim31, by decide, ?_⟩⟩
  rintro ⟨i, j⟩
  rw [mem_rim]
  match i with
  | 0 => simp
  | 1 => simp [List.getD]; omega
  | 2 => simp [List.getD]; omega
  | i + 3 => simp [List.getD]

/-! ## C84 -/

/-- C84: `KOG(p, mu)` yields the KOG tableaux with letters `1, ..., p` on all rims `nu / mu`, each exactly once, in whatever order
(`ord`) python lists sets. -/
theorem C84_kog {ord : List (Nat × Nat) → List (Nat × Nat)} (ho : ∀ l, (ord l).Perm l) (h : IsStrict mu) (p : Nat) :
    ∃ l, kog? ord p mu = some l ∧ l.Nodup ∧ ∀ T, T ∈ l ↔ ∃ nu f, IsRim mu nu ∧
      IsKOG (ShiftedDiagram nu \ ShiftedDiagram mu) p f ∧ Fills T (ShiftedDiagram nu \ ShiftedDiagram mu) f := by
  obtain ⟨L, h1, h2, h3⟩ := tabs_of_rims (P := fun D f => IsKOG D p f) h (bnd := p)
    (H := fun R => (kogHelper ord p [] R).map tabOfCells) (fun R hR => kogHelper_spec ho hR p) (fun nu f _ hf => kog_bound hf)
  exact ⟨_, by rw [kog?, h1, Option.map_some], h2, h3⟩

/-- C84: `KOG_by_shape(p, mu)` has the keys `nu` for which there are KOG tableaux on the rim `nu / mu`, and lists these tableaux,
each exactly once. -/
theorem C84_kog_by_shape {ord : List (Nat × Nat) → List (Nat × Nat)} (ho : ∀ l, (ord l).Perm l) (h : IsStrict mu) (p : Nat) :
    ∃ d, kogByShape? ord p mu = some d ∧ ListsByShape mu (fun D f => IsKOG D p f) d := by
  obtain ⟨l, h1, h2, h3⟩ := C84_kog ho h p
  obtain ⟨d, h4, h5⟩ := byShape_of_tabs (P := fun D f => IsKOG D p f) h h2 h3
  exact ⟨d, by rw [kogByShape?, h1, Option.bind_some, h4], h5⟩

/-- A KOG tableau on the rim `(4, 3) / (3, 1)`. -/
def kogExample : Nat × Nat → Int := fun b => if b = (1, 4) then 1 else if b = (2, 3) then 2 else if b = (2, 4) then 3 else 0

theorem mem31 {i j : Nat} : (i, j) ∈ ShiftedDiagram [4, 3] \ ShiftedDiagram [3, 1] ↔ (i = 1 ∧ j = 4) ∨ (i = 2 ∧ j = 3) ∨ (i = 2 ∧ j = 4) := by
  rw [mem_rim]
  match i with
  | 0 => simp
  | 1 => simp [List.getD]; omega
  | 2 => simp [List.getD]; omega
  | i + 3 => simp [List.getD]

theorem kogExample_isKOG : IsKOG (ShiftedDiagram [4, 3] \ ShiftedDiagram [3, 1]) 3 kogExample := by
  refine ⟨?_, ?_, ?_, ?_, ?_⟩
  · rintro ⟨i, j⟩ hb
    rw [mem31] at hb
    simp only [kogExample, Prod.mk.injEq]
    rw [if_neg (by omega), if_neg (by omega), if_neg (by omega)]
  · intro i j h1 h2
    rw [mem31] at h1 h2
    obtain ⟨rfl, rfl⟩ : i = 2 ∧ j = 3 := by omega
    decide
  · intro i j h1 h2
    rw [mem31] at h1 h2
    obtain ⟨rfl, rfl⟩ : i = 1 ∧ j = 4 := by omega
    decide
  · rintro ⟨i, j⟩ hb
    rw [mem31] at hb
    rcases hb with ⟨rfl, rfl⟩ | ⟨rfl, rfl⟩ | ⟨rfl, rfl⟩
    · left
      rintro ⟨k, l⟩ hc _
      rw [mem31] at hc
      rcases hc with ⟨rfl, rfl⟩ | ⟨rfl, rfl⟩ | ⟨rfl, rfl⟩ <;> decide
    · left
      rintro ⟨k, l⟩ hc hs
      rw [mem31] at hc
      simp only [SouthWest] at hs
      rcases hc with ⟨rfl, rfl⟩ | ⟨rfl, rfl⟩ | ⟨rfl, rfl⟩
      · omega
      · decide
      · decide
    · right
      rintro ⟨k, l⟩ hc _
      rw [mem31] at hc
      rcases hc with ⟨rfl, rfl⟩ | ⟨rfl, rfl⟩ | ⟨rfl, rfl⟩ <;> decide
  · ext x
    simp only [Set.mem_image, Set.mem_Icc]
    constructor
    · rintro ⟨⟨i, j⟩, hb, rfl⟩
      rw [mem31] at hb
      rcases hb with ⟨rfl, rfl⟩ | ⟨rfl, rfl⟩ | ⟨rfl, rfl⟩ <;> decide
    · rintro ⟨h1, h2⟩
      rcases (by omega : x = 1 ∨ x = 2 ∨ x = 3) with rfl | rfl | rfl
      · exact ⟨(1, 4), mem31.2 (by omega), rfl⟩
      · exact ⟨(2, 3), mem31.2 (by omega), rfl⟩
      · exact ⟨(2, 4), mem31.2 (by omega), rfl⟩

example : ∃ d, kogByShape? id 3 [3, 1] = some d ∧ ∃ ts, ([4, 3], ts) ∈ d.items := by
  obtain ⟨d, h1, h2⟩ := C84_kog_by_shape (ord := id) (fun _ => List.Perm.refl _) isStrict31 3
  exact ⟨d, h1, h2.2 _ _ isRim31 kogExample_isKOG⟩

example : (kog? id 2 [3, 1]).map List.length = some 13 := by decide +kernel

/-! ## C85 -/

theorem chain_sort {nu : List Nat} (h : IsStrict mu) (hr : IsRim mu nu) {rim : List (Nat × Nat)} (hn : rim.Nodup)
    (hm : ∀ b, b ∈ rim ↔ b ∈ ShiftedDiagram nu \ ShiftedDiagram mu) : ∃ cs, RimChain cs ∧ rim.Perm cs ∧
      {b | b ∈ cs} = ShiftedDiagram nu \ ShiftedDiagram mu := by
  have hperm : (rimSort rim).Perm rim := List.perm_insertionSort _ _
  refine ⟨_, rimChain_of_rim h hr hn hm, hperm.symm.trans (List.reverse_perm _).symm, Set.ext fun b => ?_⟩
  rw [Set.mem_ofPred_eq, List.mem_reverse, hperm.mem_iff, hm]

theorem kogCount?_eq {nu : List Nat} (h : IsStrict mu) (hr : IsRim mu nu) {rim : List (Nat × Nat)} (hn : rim.Nodup)
    (hm : ∀ b, b ∈ rim ↔ b ∈ ShiftedDiagram nu \ ShiftedDiagram mu) (p : Int) :
    kogCount? p rim = some (if p < 0 then 0 else (Set.ncard {f | IsKOG (ShiftedDiagram nu \ ShiftedDiagram mu) p.toNat f} : Int)) := by
  obtain ⟨cs, h1, h2, h3⟩ := chain_sort h hr hn hm
  rw [kogCount?, kogCountAux_eq _ p rim cs h1 h2 (by omega), rimN, ← h3, ncard_isKOG h1]

theorem klgCount?_eq {nu : List Nat} (h : IsStrict mu) (hr : IsRim mu nu) {rim : List (Nat × Nat)} (hn : rim.Nodup)
    (hm : ∀ b, b ∈ rim ↔ b ∈ ShiftedDiagram nu \ ShiftedDiagram mu) (p : Int) :
    klgCount? p rim = some (if p < 0 then 0 else (Set.ncard {f | IsKLG (ShiftedDiagram nu \ ShiftedDiagram mu) p.toNat f} : Int)) := by
  obtain ⟨cs, h1, h2, h3⟩ := chain_sort h hr hn hm
  rw [klgCount?, klgCountAux_eq _ p rim cs h1 h2 (by omega), rimN, ← h3, ncard_isKLG h1]

theorem rim_boxes (nu mu : List Nat) : (sortBoxes (skew nu mu true)).Nodup ∧
    ∀ b, b ∈ sortBoxes (skew nu mu true) ↔ b ∈ ShiftedDiagram nu \ ShiftedDiagram mu :=
  ⟨nodup_sortBoxes.2 (nodup_of_boxLt (sorted_skew nu mu true)), fun b => by rw [mem_sortBoxes, mem_skew_shifted]⟩

/-- C85: `KOG_counts(nu, mu, p)` is the number of KOG tableaux with letters `1, ..., p` on the rim `nu / mu`. -/
theorem C85_kog_counts {nu : List Nat} (h : IsStrict mu) (hr : IsRim mu nu) (p : Nat) :
    kogCounts? nu mu p = some (Set.ncard {f | IsKOG (ShiftedDiagram nu \ ShiftedDiagram mu) p f} : Int) := by
  rw [kogCounts?, kogCount?_eq h hr (rim_boxes nu mu).1 (rim_boxes nu mu).2, if_neg (by omega), Int.toNat_natCast]

/-- C85: for negative `p` it is 0. -/
theorem C85_kog_counts_neg {nu : List Nat} (h : IsStrict mu) (hr : IsRim mu nu) {p : Int} (hp : p < 0) :
    kogCounts? nu mu p = some 0 := by
  rw [kogCounts?, kogCount?_eq h hr (rim_boxes nu mu).1 (rim_boxes nu mu).2, if_pos hp]

theorem countsLoop_spec {count : List (Nat × Nat) → Option Int} {c : List (Nat × Nat) → Int} {sh : List (Nat × Nat) → List Nat}
    (L : List (List (Nat × Nat))) : ∀ (d : Dict (List Nat) Int), (∀ r ∈ L, count r = some (c r)) → (∀ r ∈ L, addRim? mu r = some (sh r)) →
      (L.map sh).Nodup → ∃ d', countsLoop count mu L d = some d' ∧ ∀ nu v, d'.get? nu = some v ↔
        (∃ r ∈ L, sh r = nu ∧ c r = v ∧ v ≠ 0) ∨ (d.get? nu = some v ∧ ∀ r ∈ L, sh r = nu → c r = 0) := by
  induction L with
  | nil => intro d _ _ _; exact ⟨d, rfl, fun nu v => by simp⟩
  | cons r L ih =>
    intro d hc hs hn
    rw [List.map_cons, List.nodup_cons] at hn
    have hc' : ∀ r ∈ L, count r = some (c r) := fun r hr => hc r (by simp [hr])
    have hs' : ∀ r ∈ L, addRim? mu r = some (sh r) := fun r hr => hs r (by simp [hr])
    rw [countsLoop, hc r (by simp)]
    dsimp only
    by_cases e : c r = 0
    · rw [if_neg (by simpa using e)]
      obtain ⟨d', h1, h2⟩ := ih d hc' hs' hn.2
      refine ⟨d', h1, fun nu v => ?_⟩
      rw [h2]
      simp only [List.mem_cons, exists_eq_or_imp, forall_eq_or_imp, e]
      constructor
      · rintro (h | h)
        · exact Or.inl (Or.inr h)
        · exact Or.inr ⟨h.1, fun _ => trivial, h.2⟩
      · rintro ((h | h) | h)
        · exact absurd h.2.1.symm h.2.2
        · exact Or.inl h
        · exact Or.inr ⟨h.1, h.2.2⟩
    · rw [if_pos e, hs r (by simp)]
      dsimp only
      obtain ⟨d', h1, h2⟩ := ih (d.set (sh r) (c r)) hc' hs' hn.2
      refine ⟨d', h1, fun nu v => ?_⟩
      rw [h2, Dict.get?_set]
      simp only [List.mem_cons, exists_eq_or_imp, forall_eq_or_imp]
      by_cases e2 : sh r = nu
      · subst e2
        rw [if_pos rfl]
        constructor
        · rintro (h | h)
          · exact Or.inl (Or.inr h)
          · have : c r = v := by simpa using h.1
            exact Or.inl (Or.inl ⟨rfl, this, this ▸ e⟩)
        · rintro ((h | h) | h)
          · refine Or.inr ⟨by rw [h.2.1], fun r' hr' he => ?_⟩
            exact absurd (List.mem_map.2 ⟨r', hr', he⟩) hn.1
          · exact Or.inl h
          · exact absurd (h.2.1 rfl) e
      · rw [if_neg (by simpa [eq_comm] using e2)]
        constructor
        · rintro (h | h)
          · exact Or.inl (Or.inr h)
          · exact Or.inr ⟨h.1, fun h' => absurd h' e2, h.2⟩
        · rintro ((h | h) | h)
          · exact absurd h.1 e2
          · exact Or.inl h
          · exact Or.inr ⟨h.1, h.2.2⟩

theorem counts_by_shape (h : IsStrict mu) {bnd : Nat} {P : Set (Nat × Nat) → (Nat × Nat → Int) → Prop} {count : List (Nat × Nat) → Option Int}
    (hcount : ∀ nu rim, IsRim mu nu → rim.Nodup → (∀ b, b ∈ rim ↔ b ∈ ShiftedDiagram nu \ ShiftedDiagram mu) →
      count rim = some (Set.ncard {f | P (ShiftedDiagram nu \ ShiftedDiagram mu) f} : Int))
    (hb : ∀ nu f, IsRim mu nu → P (ShiftedDiagram nu \ ShiftedDiagram mu) f → nu.getD 0 0 ≤ mu.getD 0 0 + bnd) :
    ∃ d, (rims? mu bnd).bind (fun shapes => countsLoop count mu shapes Dict.empty) = some d ∧ ∀ nu v, (nu, v) ∈ d.items ↔
      IsRim mu nu ∧ v = (Set.ncard {f | P (ShiftedDiagram nu \ ShiftedDiagram mu) f} : Int) ∧ v ≠ 0 := by
  obtain ⟨L, h1, h2, h3⟩ := rims?_spec h bnd
  rw [h1, Option.bind_some]
  have hsh : ∀ r ∈ L, ∀ nu, IsRim mu nu → (∀ b, b ∈ r ↔ b ∈ ShiftedDiagram nu \ ShiftedDiagram mu) → addRim? mu r = some nu :=
    fun r hr nu hn hD => addRim?_spec h hn (nodup_of_boxLt ((h3 r).1 hr).1) hD
  obtain ⟨d, h4, h5⟩ := countsLoop_spec (mu := mu) (count := count) (c := fun r => (count r).getD 0) (sh := fun r => (addRim? mu r).getD [])
    L Dict.empty (fun r hr => by
      obtain ⟨hs, nu, hn, _, hD⟩ := (h3 r).1 hr
      rw [hcount nu r hn (nodup_of_boxLt hs) hD, Option.getD_some]) (fun r hr => by
      obtain ⟨hs, nu, hn, _, hD⟩ := (h3 r).1 hr
      rw [hsh r hr nu hn hD, Option.getD_some]) (by
      rw [List.nodup_map_iff_inj_on h2]
      intro r hr r' hr' e
      obtain ⟨hs, nu, hn, _, hD⟩ := (h3 r).1 hr
      obtain ⟨hs', nu', hn', _, hD'⟩ := (h3 r').1 hr'
      rw [hsh r hr nu hn hD, hsh r' hr' nu' hn' hD', Option.getD_some, Option.getD_some] at e
      subst e
      exact boxes_ext hs hs' (fun b => (hD b).trans (hD' b).symm))
  refine ⟨d, h4, fun nu v => ?_⟩
  rw [← Dict.get?_eq_some, h5]
  simp only [Dict.get?_empty, reduceCtorEq, false_and, or_false]
  constructor
  · rintro ⟨r, hr, e1, e2, e3⟩
    obtain ⟨hs, nu', hn, _, hD⟩ := (h3 r).1 hr
    rw [hsh r hr nu' hn hD, Option.getD_some] at e1
    subst e1
    rw [hcount nu' r hn (nodup_of_boxLt hs) hD, Option.getD_some] at e2
    exact ⟨hn, e2.symm, e3⟩
  · rintro ⟨hn, e1, e2⟩
    have hne : ({f | P (ShiftedDiagram nu \ ShiftedDiagram mu) f} : Set _).Nonempty := by
      rw [Set.nonempty_iff_ne_empty]
      intro e
      rw [e, Set.ncard_empty] at e1
      exact e2 (by rw [e1]; rfl)
    obtain ⟨f, hf⟩ := hne
    have hD : ∀ b, b ∈ skew nu mu true ↔ b ∈ ShiftedDiagram nu \ ShiftedDiagram mu := mem_skew_shifted
    have hr := (h3 (skew nu mu true)).2 ⟨sorted_skew nu mu true, nu, hn, hb nu f hn hf, hD⟩
    refine ⟨_, hr, ?_, ?_, e2⟩
    · rw [hsh _ hr nu hn hD, Option.getD_some]
    · rw [hcount nu _ hn (nodup_of_boxLt (sorted_skew nu mu true)) hD, Option.getD_some, e1]

/-- C85: `KOG_counts_by_shape(p, mu)` has the keys `nu` for which there are KOG tableaux on the rim `nu / mu`, with the number of
these tableaux. -/
theorem C85_kog_counts_by_shape (h : IsStrict mu) (p : Nat) : ∃ d, kogCountsByShape? p mu = some d ∧ ∀ nu v, (nu, v) ∈ d.items ↔
    IsRim mu nu ∧ v = (Set.ncard {f | IsKOG (ShiftedDiagram nu \ ShiftedDiagram mu) p f} : Int) ∧ v ≠ 0 :=
  counts_by_shape (P := fun D f => IsKOG D p f) h (fun nu rim hr hn hD => by
    rw [kogCount?_eq h hr hn hD, if_neg (by omega), Int.toNat_natCast]) (fun nu f _ hf => kog_bound hf)

theorem counts_eq_lengths {P : Set (Nat × Nat) → (Nat × Nat → Int) → Prop} (hP : ∀ D f, P D f → ∀ b, b ∉ D → f b = 0)
    {d : Dict (List Nat) (List Tab)} (hd : ListsByShape mu P d) {d' : Dict (List Nat) Int}
    (hd' : ∀ nu v, (nu, v) ∈ d'.items ↔ IsRim mu nu ∧ v = (Set.ncard {f | P (ShiftedDiagram nu \ ShiftedDiagram mu) f} : Int) ∧ v ≠ 0)
    (nu : List Nat) : d'.get? nu = (d.get? nu).map (fun ts => (ts.length : Int)) := by
  have hcard : ∀ ts, (nu, ts) ∈ d.items → Set.ncard {f | P (ShiftedDiagram nu \ ShiftedDiagram mu) f} = ts.length := fun ts hts => by
    obtain ⟨_, _, h3, h4⟩ := hd.1 nu ts hts
    exact ncard_of_tabs h3 (nodup_of_boxLt (sorted_skew nu mu true)) mem_skew_shifted (hP _) h4
  cases hg : d.get? nu with
  | some ts =>
    have hts := Dict.get?_eq_some.1 hg
    obtain ⟨h1, h2, _⟩ := hd.1 nu ts hts
    rw [Option.map_some, Dict.get?_eq_some, hd']
    refine ⟨h1, by rw [hcard ts hts], fun e => h2 (List.length_eq_zero_iff.1 (by exact_mod_cast e))⟩
  | none =>
    rw [Option.map_none, Option.eq_none_iff_forall_ne_some]
    intro v hv
    obtain ⟨h1, h2, h3⟩ := (hd' nu v).1 (Dict.get?_eq_some.1 hv)
    have hne : ({f | P (ShiftedDiagram nu \ ShiftedDiagram mu) f} : Set _).Nonempty := by
      rw [Set.nonempty_iff_ne_empty]
      intro e
      rw [e, Set.ncard_empty] at h2
      exact h3 (by rw [h2]; rfl)
    obtain ⟨f, hf⟩ := hne
    obtain ⟨ts, hts⟩ := hd.2 nu f h1 hf
    rw [Dict.get?_eq_some.2 hts] at hg
    simp at hg

/-- C85: the dictionaries of `KOG_counts_by_shape` and `KOG_by_shape` have the same keys, and the counts are the lengths of the
lists. -/
theorem C85_kog_counts_lengths {ord : List (Nat × Nat) → List (Nat × Nat)} (ho : ∀ l, (ord l).Perm l) (h : IsStrict mu) (p : Nat) :
    ∃ d d', kogByShape? ord p mu = some d ∧ kogCountsByShape? p mu = some d' ∧
      ∀ nu, d'.get? nu = (d.get? nu).map (fun ts => (ts.length : Int)) := by
  obtain ⟨d, h1, h2⟩ := C84_kog_by_shape ho h p
  obtain ⟨d', h3, h4⟩ := C85_kog_counts_by_shape h p
  exact ⟨d, d', h1, h3, counts_eq_lengths (P := fun D f => IsKOG D p f) (fun D f hf => hf.off) h2 h4⟩

example : kogCounts? [4, 3] [3, 1] 3 = some 1 ∧ kogCounts? [4, 2] [3, 1] 2 = some 2 ∧ kogCounts? [5, 3, 1] [4, 2] 3 = some 4 := by decide +kernel

example : Set.ncard {f | IsKOG (ShiftedDiagram [4, 3] \ ShiftedDiagram [3, 1]) 3 f} = 1 := by
  have h1 := C85_kog_counts isStrict31 isRim31 3
  have h2 : kogCounts? [4, 3] [3, 1] ((3 : Nat) : Int) = some 1 := by decide +kernel
  rw [h2] at h1
  exact_mod_cast (Option.some.inj h1).symm

/-- C85: outside rims the counts mean nothing: `(3, 2) / (1)` is not a rim. -/
theorem C85_not_a_rim : kogCounts? [3, 2] [1] 2 = some 1 ∧ klgCounts? [3, 2] [1] 2 = some 1 ∧ ¬ IsRim [1] [3, 2] := by
  refine ⟨by decide +kernel, by decide +kernel, fun h => h.thin 1 2 ?_⟩
  rw [mem_rim, mem_rim]
  decide

/-! ## C86 -/

/-- C86: `KLG(p, mu)` yields the KLG tableaux with letters `1', 1, ..., p', p` on all rims `nu / mu`, each exactly once, in whatever
order (`ord`) python lists sets. -/
theorem C86_klg {ord : List (Nat × Nat) → List (Nat × Nat)} (ho : ∀ l, (ord l).Perm l) (h : IsStrict mu) (p : Nat) :
    ∃ l, klg? ord p mu = some l ∧ l.Nodup ∧ ∀ T, T ∈ l ↔ ∃ nu f, IsRim mu nu ∧
      IsKLG (ShiftedDiagram nu \ ShiftedDiagram mu) p f ∧ Fills T (ShiftedDiagram nu \ ShiftedDiagram mu) f := by
  obtain ⟨L, h1, h2, h3⟩ := tabs_of_rims (P := fun D f => IsKLG D p f) h (bnd := p + 1)
    (H := fun R => (klgHelper ord (2 * p) [] R).map tabOfCells) (fun R hR => klgHelper_spec ho hR p) (fun nu f _ hf => klg_bound hf)
  exact ⟨_, by rw [klg?, h1, Option.map_some], h2, h3⟩

/-- C86: `KLG_by_shape(p, mu)` has the keys `nu` for which there are KLG tableaux on the rim `nu / mu`, and lists these tableaux,
each exactly once. -/
theorem C86_klg_by_shape {ord : List (Nat × Nat) → List (Nat × Nat)} (ho : ∀ l, (ord l).Perm l) (h : IsStrict mu) (p : Nat) :
    ∃ d, klgByShape? ord p mu = some d ∧ ListsByShape mu (fun D f => IsKLG D p f) d := by
  obtain ⟨l, h1, h2, h3⟩ := C86_klg ho h p
  obtain ⟨d, h4, h5⟩ := byShape_of_tabs (P := fun D f => IsKLG D p f) h h2 h3
  exact ⟨d, by rw [klgByShape?, h1, Option.bind_some, h4], h5⟩

/-- A KLG tableau on the rim `(4, 3) / (3, 1)`. -/
def klgExample : Nat × Nat → Int := fun b => if b = (1, 4) then -1 else if b = (2, 3) then 1 else if b = (2, 4) then 2 else 0

theorem klgExample_isKLG : IsKLG (ShiftedDiagram [4, 3] \ ShiftedDiagram [3, 1]) 2 klgExample := by
  refine ⟨?_, ?_, ?_, ?_, ?_, ?_, ?_⟩
  · rintro ⟨i, j⟩ hb
    rw [mem31] at hb
    simp only [klgExample, Prod.mk.injEq]
    rw [if_neg (by omega), if_neg (by omega), if_neg (by omega)]
  · intro i j h1 h2
    rw [mem31] at h1 h2
    obtain ⟨rfl, rfl⟩ : i = 2 ∧ j = 3 := by omega
    exact letterLt_iff.2 (by decide)
  · intro i j h1 h2
    rw [mem31] at h1 h2
    obtain ⟨rfl, rfl⟩ : i = 1 ∧ j = 4 := by omega
    exact letterLt_iff.2 (by decide)
  · intro i hi
    rw [mem31] at hi
    omega
  · rintro ⟨i, j⟩ hb hneg ⟨k, l⟩ hc hs
    rw [mem31] at hb hc
    rw [letterLt_iff]
    rcases hb with ⟨rfl, rfl⟩ | ⟨rfl, rfl⟩ | ⟨rfl, rfl⟩
    · rcases hc with ⟨rfl, rfl⟩ | ⟨rfl, rfl⟩ | ⟨rfl, rfl⟩ <;> decide
    · exact absurd hneg (by decide)
    · exact absurd hneg (by decide)
  · rintro ⟨i, j⟩ hb hpos ⟨k, l⟩ hc hs
    rw [mem31] at hb hc
    rw [letterLt_iff]
    simp only [SouthWest] at hs
    rcases hb with ⟨rfl, rfl⟩ | ⟨rfl, rfl⟩ | ⟨rfl, rfl⟩
    · exact absurd hpos (by decide)
    · rcases hc with ⟨rfl, rfl⟩ | ⟨rfl, rfl⟩ | ⟨rfl, rfl⟩
      · omega
      · decide
      · omega
    · rcases hc with ⟨rfl, rfl⟩ | ⟨rfl, rfl⟩ | ⟨rfl, rfl⟩ <;> decide
  · ext x
    simp only [Set.mem_image, Set.mem_Icc]
    constructor
    · rintro ⟨⟨i, j⟩, hb, rfl⟩
      rw [mem31] at hb
      rcases hb with ⟨rfl, rfl⟩ | ⟨rfl, rfl⟩ | ⟨rfl, rfl⟩ <;> decide
    · rintro ⟨h1, h2⟩
      rcases (by omega : x = 1 ∨ x = 2) with rfl | rfl
      · exact ⟨(2, 3), mem31.2 (by omega), rfl⟩
      · exact ⟨(2, 4), mem31.2 (by omega), rfl⟩

example : ∃ d, klgByShape? id 2 [3, 1] = some d ∧ ∃ ts, ([4, 3], ts) ∈ d.items := by
  obtain ⟨d, h1, h2⟩ := C86_klg_by_shape (ord := id) (fun _ => List.Perm.refl _) isStrict31 2
  exact ⟨d, h1, h2.2 _ _ isRim31 klgExample_isKLG⟩

/-! ## C87 -/

/-- C87: `KLG_counts(nu, mu, p)` is the number of KLG tableaux with letters `1', 1, ..., p', p` on the rim `nu / mu`. -/
theorem C87_klg_counts {nu : List Nat} (h : IsStrict mu) (hr : IsRim mu nu) (p : Nat) :
    klgCounts? nu mu p = some (Set.ncard {f | IsKLG (ShiftedDiagram nu \ ShiftedDiagram mu) p f} : Int) := by
  rw [klgCounts?, klgCount?_eq h hr (rim_boxes nu mu).1 (rim_boxes nu mu).2, if_neg (by omega), Int.toNat_natCast]

/-- C87: for negative `p` it is 0. -/
theorem C87_klg_counts_neg {nu : List Nat} (h : IsStrict mu) (hr : IsRim mu nu) {p : Int} (hp : p < 0) :
    klgCounts? nu mu p = some 0 := by
  rw [klgCounts?, klgCount?_eq h hr (rim_boxes nu mu).1 (rim_boxes nu mu).2, if_pos hp]

/-- C87: `KLG_counts_by_shape(p, mu)` has the keys `nu` for which there are KLG tableaux on the rim `nu / mu`, with the number of
these tableaux. -/
theorem C87_klg_counts_by_shape (h : IsStrict mu) (p : Nat) : ∃ d, klgCountsByShape? p mu = some d ∧ ∀ nu v, (nu, v) ∈ d.items ↔
    IsRim mu nu ∧ v = (Set.ncard {f | IsKLG (ShiftedDiagram nu \ ShiftedDiagram mu) p f} : Int) ∧ v ≠ 0 :=
  counts_by_shape (P := fun D f => IsKLG D p f) h (fun nu rim hr hn hD => by
    rw [klgCount?_eq h hr hn hD, if_neg (by omega), Int.toNat_natCast]) (fun nu f _ hf => klg_bound hf)

/-- C87: the dictionaries of `KLG_counts_by_shape` and `KLG_by_shape` have the same keys, and the counts are the lengths of the
lists. -/
theorem C87_klg_counts_lengths {ord : List (Nat × Nat) → List (Nat × Nat)} (ho : ∀ l, (ord l).Perm l) (h : IsStrict mu) (p : Nat) :
    ∃ d d', klgByShape? ord p mu = some d ∧ klgCountsByShape? p mu = some d' ∧
      ∀ nu, d'.get? nu = (d.get? nu).map (fun ts => (ts.length : Int)) := by
  obtain ⟨d, h1, h2⟩ := C86_klg_by_shape ho h p
  obtain ⟨d', h3, h4⟩ := C87_klg_counts_by_shape h p
  exact ⟨d, d', h1, h3, counts_eq_lengths (P := fun D f => IsKLG D p f) (fun D f hf => hf.off) h2 h4⟩

example : klgCounts? [4, 3] [3, 1] 2 = some 3 ∧ klgCounts? [4, 3] [3, 1] 3 = some 2 ∧ klgCounts? [5, 3, 1] [4, 2] 2 = some 8 := by decide +kernel

example : 0 < Set.ncard {f | IsKLG (ShiftedDiagram [4, 3] \ ShiftedDiagram [3, 1]) 2 f} := by
  obtain ⟨d, _, h2⟩ := C86_klg_by_shape (ord := id) (fun _ => List.Perm.refl _) isStrict31 2
  obtain ⟨ts, hts⟩ := h2.2 _ _ isRim31 klgExample_isKLG
  obtain ⟨_, h3, h4, h5⟩ := h2.1 _ _ hts
  rw [ncard_of_tabs h4 (nodup_of_boxLt (sorted_skew [4, 3] [3, 1] true)) mem_skew_shifted (fun f hf => hf.off) h5]
  exact List.length_pos_of_ne_nil h3

end Verif.Tableaux
