import Verif.Lemmas.FromSkew
import Verif.Props.SkewKey

/-!
# C114: partitions from the boxes of a skew shape

`from_skew` recovers partitions from a nonempty skew shape, moved to the left as far as possible, and runs forever on the empty one.
-/

namespace Verif.Partition
open Verif.Part
attribute [-simp] List.getD_eq_getElem?_getD

theorem skewRow_eq {sh : Bool} {N M : Nat → Nat} {pos : List (Int × Int)}
    (hpos : ∀ i j : Int, (i, j) ∈ pos ↔ ∃ k : Nat, i = k + 1 ∧ (M k : Int) + (if sh then (k : Int) else 0) < j ∧ j ≤ N k + (if sh then (k : Int) else 0))
    (k : Nat) : skewRow pos sh ((k : Int) + 1) = rowPair N M k := by
  obtain ⟨c, hc⟩ : ∃ c : Int, (if sh then (k : Int) else 0) = c := ⟨_, rfl⟩
  obtain ⟨row, hrow⟩ : ∃ row, (pos.filter (fun b => decide (b.1 = (k : Int) + 1))).map (fun b => b.2) = row := ⟨_, rfl⟩
  have hmem : ∀ j, j ∈ row ↔ (M k : Int) + c < j ∧ j ≤ N k + c := by
    intro j
    rw [← hrow, List.mem_map]
    constructor
    · rintro ⟨⟨a, b⟩, h1, rfl⟩
      obtain ⟨h1, h2⟩ := List.mem_filter.1 h1
      rw [decide_eq_true_eq] at h2
      dsimp only at h2
      obtain ⟨k', h3, h4⟩ := (hpos a b).1 h1
      obtain rfl : k = k' := by omega
      rwa [hc] at h4
    · intro h
      exact ⟨((k : Int) + 1, j), List.mem_filter.2 ⟨(hpos _ _).2 ⟨k, rfl, by rwa [hc]⟩, by simp⟩, rfl⟩
  have hc' : (if sh = true then (k : Int) + 1 - 1 else 0) = c := by rw [← hc, Int.add_sub_cancel]
  rw [skewRow, rowPair]
  rw [hrow, hc']
  by_cases h : M k < N k
  · have hne : row ≠ [] := by
      intro h0
      have := (hmem (N k + c)).2 ⟨by omega, le_refl _⟩
      rw [h0] at this
      simp at this
    have hmax : row.max? = some ((N k : Int) + c) :=
      List.max?_eq_some_iff.2 ⟨(hmem _).2 ⟨by omega, le_refl _⟩, fun b hb => ((hmem b).1 hb).2⟩
    have hmin : row.min? = some ((M k : Int) + c + 1) :=
      List.min?_eq_some_iff.2 ⟨(hmem _).2 ⟨by omega, by omega⟩, fun b hb => by have := ((hmem b).1 hb).1; omega⟩
    rw [if_neg hne, if_pos h, hmax, hmin]
    refine Prod.ext ?_ ?_
    · dsimp only [Option.getD_some]; omega
    · dsimp only [Option.getD_some]; omega
  · rw [if_pos, if_neg h]
    refine List.eq_nil_iff_forall_not_mem.2 (fun j hj => ?_)
    have := (hmem j).1 hj
    omega

/-- The result of `from_skew` for rows given by functions. -/
theorem fromSkew_rows {sh : Bool} {N M : Nat → Nat} {pos : List (Int × Int)}
    (hpos : ∀ i j : Int, (i, j) ∈ pos ↔ ∃ k : Nat, i = k + 1 ∧ (M k : Int) + (if sh then (k : Int) else 0) < j ∧ j ≤ N k + (if sh then (k : Int) else 0))
    (hN : ∀ i, N (i + 1) + (if sh then 1 else 0) ≤ N i ∨ N (i + 1) = 0) (hM : ∀ i, M (i + 1) + (if sh then 1 else 0) ≤ M i ∨ M (i + 1) = 0)
    (hne : pos ≠ []) :
    ∃ (R : Nat) (F G : Nat → Nat), SkewRows (if sh then 1 else 0) N M R ∧ Filled (if sh then 1 else 0) N M R 0 F G ∧
      (∀ i < R, G (R - 1) ≤ G i) ∧ (∀ i < R, G (R - 1) < F i) ∧
      ∀ fuel > G (R - 1), fromSkew fuel pos sh = some ((lowered R F (G (R - 1))).map (fun a : Nat => (a : Int)),
        (trim (lowered R G (G (R - 1)))).map (fun a : Nat => (a : Int))) := by
  obtain ⟨m, hm⟩ : ∃ m, (pos.map (fun b : Int × Int => b.1)).max? = some m := by
    cases h : (pos.map (fun b : Int × Int => b.1)).max? with
    | none => rw [List.max?_eq_none_iff, List.map_eq_nil_iff] at h; exact absurd h hne
    | some m => exact ⟨m, rfl⟩
  obtain ⟨h1, h2⟩ := List.max?_eq_some_iff.1 hm
  obtain ⟨⟨a, b⟩, h3, rfl⟩ := List.mem_map.1 h1
  obtain ⟨r, h4, h5, h6⟩ := (hpos a b).1 h3
  dsimp only at hm h2
  have hR : SkewRows (if sh then 1 else 0) N M (r + 1) := by
    refine ⟨hN, hM, by omega, by rw [Nat.add_sub_cancel]; omega, fun k hk => ?_⟩
    by_contra hc
    have h7 := h2 _ (List.mem_map.2 ⟨((k : Int) + 1, (N k : Int) + (if sh then (k : Int) else 0)), (hpos _ _).2 ⟨k, rfl, by omega, le_refl _⟩, rfl⟩)
    dsimp only at h7
    omega
  obtain ⟨F, G, h7, h8⟩ := fill_spec hR r (by omega)
  have e0 : r + 1 - 1 - r = 0 := by omega
  rw [e0] at h7 h8
  have hGa : ∀ d, d ≤ r → G r ≤ G (r - d) := by
    intro d
    induction d with
    | zero => intro _; exact le_refl _
    | succ d ih =>
      intro hd
      have h9 := ih (by omega)
      have h10 := h8.nextG (r - (d + 1)) (by omega) (by omega)
      rw [show r - (d + 1) + 1 = r - d by omega] at h10
      omega
  have hG : ∀ i < r + 1, G r ≤ G i := fun i hi => by
    have := hGa (r - i) (by omega)
    rwa [show r - (r - i) = i by omega] at this
  have hFl := h8.full r (by omega) (by omega) (by have := hR.last; rwa [Nat.add_sub_cancel] at this)
  have hlt : G r < F r := by
    have := hR.last
    rw [Nat.add_sub_cancel] at this
    omega
  have hF : ∀ d, d ≤ r → G r < F (r - d) := by
    intro d
    induction d with
    | zero => intro _; exact hlt
    | succ d ih =>
      intro hd
      have h9 := ih (by omega)
      have h10 := h8.nextF (r - (d + 1)) (by omega) (by omega)
      rw [show r - (d + 1) + 1 = r - d by omega] at h10
      omega
  have hF' : ∀ i < r + 1, G r < F i := fun i hi => by
    have := hF (r - i) (by omega)
    rwa [show r - (r - i) = i by omega] at this
  refine ⟨r + 1, F, G, hR, h8, hG, hF', fun fuel hfuel => ?_⟩
  rw [fromSkew]
  have hlast : (((pos.map (fun b : Int × Int => b.1)).max?).getD 0).toNat = r + 1 := by
    rw [hm, Option.getD_some, h4]
    omega
  have hrows : (List.range (r + 1)).map (fun i : Nat => skewRow pos sh ((i : Int) + 1)) = (List.range' 0 (r + 1)).map (rowPair N M) := by
    rw [← List.range_eq_range']
    exact List.map_congr_left (fun i _ => skewRow_eq hpos i)
  rw [hlast, hrows, h7, List.map_append, List.map_append, List.map_map, List.map_map, ← List.range_eq_range']
  have e1 : (List.range (r + 1)).map ((fun q : Int × Int => q.1) ∘ fun i => ((F i : Int), (G i : Int))) ++ [((0 : Int), (0 : Int))].map (fun q => q.1) =
      (lowered (r + 1) F 0 ++ [0]).map (fun a : Nat => (a : Int)) := by
    rw [List.map_append, lowered, List.map_map]
    rfl
  have e2 : (List.range (r + 1)).map ((fun q : Int × Int => q.2) ∘ fun i => ((F i : Int), (G i : Int))) ++ [((0 : Int), (0 : Int))].map (fun q => q.2) =
      (lowered (r + 1) G 0 ++ [0]).map (fun a : Nat => (a : Int)) := by
    rw [List.map_append, lowered, List.map_map]
    rfl
  rw [e1, e2, trimInt_cast, trimInt_cast, trim_snoc_zero, trim_snoc_zero, trim_lowered (fun i hi => by have := hF' i hi; omega)]
  exact left_spec (R := r + 1) (by omega) hF' hG fuel 0 (Nat.zero_le _) (by rw [Nat.sub_zero]; exact hfuel)

/-- C114: for the boxes of a nonempty skew shape, `from_skew` ends and returns partitions `nu` and `mu`, `mu` inside `nu`, whose skew
shape is the given one moved to the left until the last row starts in the first column; rows without boxes are as short as possible. -/
theorem C114_plain {nu0 mu0 : List Nat} (hn : IsPartition nu0) (hm : IsPartition mu0) {pos : List (Int × Int)}
    (hpos : ∀ i j : Int, (i, j) ∈ pos ↔ ∃ b ∈ Diagram nu0 \ Diagram mu0, (b.1 : Int) = i ∧ (b.2 : Int) = j) (hne : pos ≠ []) :
    ∃ (f0 : Nat) (nu mu : List Nat),
      (∀ fuel ≥ f0, fromSkew fuel pos false = some (nu.map (fun a : Nat => (a : Int)), mu.map (fun a : Nat => (a : Int)))) ∧
      IsPartition nu ∧ IsPartition mu ∧ Diagram mu ⊆ Diagram nu ∧ (nu.length, 1) ∈ Diagram nu \ Diagram mu ∧
      (∃ c : Nat, IsTranslate 0 c (Diagram nu \ Diagram mu) (Diagram nu0 \ Diagram mu0)) ∧
      ∀ i < nu.length, nu.getD i 0 = mu.getD i 0 → nu.getD i 0 = nu.getD (i + 1) 0 := by
  have hN := pairwise_ge_iff.1 hn.1
  have hM := pairwise_ge_iff.1 hm.1
  have hbox : ∀ i j, (i, j) ∈ Diagram nu0 \ Diagram mu0 ↔ 1 ≤ i ∧ mu0.getD (i - 1) 0 < j ∧ j ≤ nu0.getD (i - 1) 0 := by
    intro i j
    rw [Set.mem_sdiff, mem_diagram, mem_diagram]
    omega
  obtain ⟨R, F, G, hR, hf, hG, hF, hres⟩ := fromSkew_rows (sh := false) (N := fun i => nu0.getD i 0) (M := fun i => mu0.getD i 0) (pos := pos)
    (by
      intro i j
      rw [hpos]
      constructor
      · rintro ⟨⟨a, b⟩, h1, rfl, rfl⟩
        rw [hbox] at h1
        refine ⟨a - 1, ?_, ?_, ?_⟩
        · dsimp only; omega
        · simp only [Bool.false_eq_true, if_false, Int.add_zero]; omega
        · simp only [Bool.false_eq_true, if_false, Int.add_zero]; omega
      · rintro ⟨k, rfl, h1, h2⟩
        simp only [Bool.false_eq_true, if_false, Int.add_zero] at h1 h2
        refine ⟨(k + 1, j.toNat), (hbox _ _).2 ⟨by omega, by rw [Nat.add_sub_cancel]; omega, by rw [Nat.add_sub_cancel]; omega⟩, ?_, ?_⟩
        · dsimp only; omega
        · dsimp only; omega)
    (fun i => .inl (hN i)) (fun i => .inl (hM i)) hne
  simp only [Bool.false_eq_true, if_false] at hR hf
  have hlen : (lowered R F (G (R - 1))).length = R := by simp [lowered]
  have hp := hR.pos
  obtain ⟨c, hc⟩ : ∃ c, G (R - 1) = c := ⟨_, rfl⟩
  rw [hc] at hres hlen hF hG
  have hd : ∀ i j, (i, j) ∈ Diagram (lowered R F c) \ Diagram (trim (lowered R G c)) ↔ 1 ≤ i ∧ i - 1 < R ∧ G (i - 1) - c < j ∧ j ≤ F (i - 1) - c := by
    intro i j
    rw [Set.mem_sdiff, mem_diagram, mem_diagram, getD_trim, getD_lowered, getD_lowered]
    by_cases hi : i - 1 < R
    · rw [if_pos hi, if_pos hi]; omega
    · rw [if_neg hi, if_neg hi]; omega
  refine ⟨c + 1, lowered R F c, trim (lowered R G c), fun fuel hfuel => hres fuel (by omega), ?_, ?_, ?_, ?_, ⟨c, ?_⟩, ?_⟩
  · refine ⟨pairwise_ge_iff.2 (fun i => ?_), fun a ha => ?_⟩
    · rw [getD_lowered, getD_lowered]
      by_cases hi : i + 1 < R
      · have := hf.nextF i (by omega) hi
        rw [if_pos hi, if_pos (by omega)]
        omega
      · rw [if_neg hi]
        omega
    · obtain ⟨i, hi, rfl⟩ := List.mem_map.1 ha
      have := hF i (List.mem_range.1 hi)
      omega
  · apply trim_isPartition
    refine pairwise_ge_iff.2 (fun i => ?_)
    rw [getD_lowered, getD_lowered]
    by_cases hi : i + 1 < R
    · have := hf.nextG i (by omega) hi
      rw [if_pos hi, if_pos (by omega)]
      omega
    · rw [if_neg hi]
      omega
  · rw [diagram_subset]
    intro i
    rw [getD_trim, getD_lowered, getD_lowered]
    by_cases hi : i < R
    · have := hf.bound i (by omega) hi
      rw [if_pos hi, if_pos hi]
      omega
    · rw [if_neg hi, if_neg hi]
  · rw [hlen, hd]
    have := hF (R - 1) (by omega)
    omega
  · have hrow : ∀ i < R, ∀ j : Nat, (mu0.getD i 0 < j ∧ j ≤ nu0.getD i 0) ↔ (G i < j ∧ j ≤ F i) := by
      intro i hi j
      by_cases h1 : mu0.getD i 0 < nu0.getD i 0
      · obtain ⟨h2, h3⟩ := hf.full i (by omega) hi h1
        rw [h2, h3]
      · have h2 := hf.gap i (by omega) hi (by omega)
        omega
    constructor
    · rintro ⟨i, j⟩ hij
      rw [hd] at hij
      have h1 := hG (i - 1) hij.2.1
      refine ⟨(i, j + c), (hbox _ _).2 ⟨hij.1, (hrow (i - 1) hij.2.1 (j + c)).2 ⟨by omega, by omega⟩⟩, ?_, ?_⟩
      · dsimp only; omega
      · dsimp only; omega
    · rintro ⟨i, j⟩ hij
      rw [hbox] at hij
      have hi : i - 1 < R := by
        by_contra h1
        have := hR.above (i - 1) (by omega)
        omega
      have h1 := hG (i - 1) hi
      have h2 := (hrow (i - 1) hi j).1 hij.2
      refine ⟨(i, j - c), (hd _ _).2 ⟨hij.1, hi, by omega, by omega⟩, ?_, ?_⟩
      · dsimp only; omega
      · dsimp only; omega
  · intro i hi he
    rw [hlen] at hi
    rw [getD_trim, getD_lowered, getD_lowered, if_pos hi, if_pos hi] at he
    have h1 := hG i hi
    have h2 := hF i hi
    have h3 : nu0.getD i 0 ≤ mu0.getD i 0 := by
      by_contra h4
      have := hf.full i (by omega) hi (by omega)
      omega
    have h4 := hf.nextGap i (by omega) hi h3
    have h5 : i + 1 < R := by
      by_contra h6
      have h7 : i = R - 1 := by omega
      have := hR.last
      rw [← h7] at this
      omega
    rw [getD_lowered, getD_lowered, if_pos hi, if_pos h5]
    omega

/-- C114: the same for shifted shapes, strict partitions and the diagonal. -/
theorem C114_shifted {nu0 mu0 : List Nat} (hn : IsStrict nu0) (hm : IsStrict mu0) {pos : List (Int × Int)}
    (hpos : ∀ i j : Int, (i, j) ∈ pos ↔ ∃ b ∈ ShiftedDiagram nu0 \ ShiftedDiagram mu0, (b.1 : Int) = i ∧ (b.2 : Int) = j) (hne : pos ≠ []) :
    ∃ (f0 : Nat) (nu mu : List Nat),
      (∀ fuel ≥ f0, fromSkew fuel pos true = some (nu.map (fun a : Nat => (a : Int)), mu.map (fun a : Nat => (a : Int)))) ∧
      IsStrict nu ∧ IsStrict mu ∧ ShiftedDiagram mu ⊆ ShiftedDiagram nu ∧ (nu.length, nu.length) ∈ ShiftedDiagram nu \ ShiftedDiagram mu ∧
      (∃ c : Nat, IsTranslate 0 c (ShiftedDiagram nu \ ShiftedDiagram mu) (ShiftedDiagram nu0 \ ShiftedDiagram mu0)) ∧
      ∀ i < nu.length, nu.getD i 0 = mu.getD i 0 → nu.getD i 0 = nu.getD (i + 1) 0 + 1 := by
  have hN := strict_next hn
  have hM := strict_next hm
  have hbox : ∀ i j, (i, j) ∈ ShiftedDiagram nu0 \ ShiftedDiagram mu0 ↔ 1 ≤ i ∧ mu0.getD (i - 1) 0 + (i - 1) < j ∧ j ≤ nu0.getD (i - 1) 0 + (i - 1) := by
    intro i j
    rw [Set.mem_sdiff, mem_shiftedDiagram, mem_shiftedDiagram]
    omega
  obtain ⟨R, F, G, hR, hf, hG, hF, hres⟩ := fromSkew_rows (sh := true) (N := fun i => nu0.getD i 0) (M := fun i => mu0.getD i 0) (pos := pos)
    (by
      intro i j
      rw [hpos]
      constructor
      · rintro ⟨⟨a, b⟩, h1, rfl, rfl⟩
        rw [hbox] at h1
        refine ⟨a - 1, ?_, ?_, ?_⟩
        · dsimp only; omega
        · simp only [if_true]; omega
        · simp only [if_true]; omega
      · rintro ⟨k, rfl, h1, h2⟩
        simp only [if_true] at h1 h2
        refine ⟨(k + 1, j.toNat), (hbox _ _).2 ⟨by omega, by rw [Nat.add_sub_cancel]; omega, by rw [Nat.add_sub_cancel]; omega⟩, ?_, ?_⟩
        · dsimp only; omega
        · dsimp only; omega)
    (fun i => by have := hN i; simp only [if_true]; omega) (fun i => by have := hM i; simp only [if_true]; omega) hne
  simp only [if_true] at hR hf
  have hlen : (lowered R F (G (R - 1))).length = R := by simp [lowered]
  have hp := hR.pos
  obtain ⟨c, hc⟩ : ∃ c, G (R - 1) = c := ⟨_, rfl⟩
  rw [hc] at hres hlen hF hG
  have hd : ∀ i j, (i, j) ∈ ShiftedDiagram (lowered R F c) \ ShiftedDiagram (trim (lowered R G c)) ↔
      1 ≤ i ∧ i - 1 < R ∧ G (i - 1) - c + (i - 1) < j ∧ j ≤ F (i - 1) - c + (i - 1) := by
    intro i j
    rw [Set.mem_sdiff, mem_shiftedDiagram, mem_shiftedDiagram, getD_trim, getD_lowered, getD_lowered]
    by_cases hi : i - 1 < R
    · rw [if_pos hi, if_pos hi]; omega
    · rw [if_neg hi, if_neg hi]; omega
  have hnext : ∀ i, (lowered R F c).getD (i + 1) 0 < (lowered R F c).getD i 0 ∨ (lowered R F c).getD i 0 = 0 ∧ (lowered R F c).getD (i + 1) 0 = 0 := by
    intro i
    rw [getD_lowered, getD_lowered]
    by_cases hi : i + 1 < R
    · have := hf.nextF i (by omega) hi
      have := hF i (by omega)
      rw [if_pos hi, if_pos (by omega)]
      omega
    · rw [if_neg hi]
      omega
  refine ⟨c + 1, lowered R F c, trim (lowered R G c), fun fuel hfuel => hres fuel (by omega), ?_, ?_, ?_, ?_, ⟨c, ?_⟩, ?_⟩
  · refine isStrict_of_next (fun a ha => ?_) hnext
    obtain ⟨i, hi, rfl⟩ := List.mem_map.1 ha
    have := hF i (List.mem_range.1 hi)
    omega
  · apply trim_isStrict_of_next
    intro i
    rw [getD_lowered, getD_lowered]
    by_cases hi : i + 1 < R
    · have h1 := hf.nextG i (by omega) hi
      have h2 := hG i (by omega)
      have h3 := hG (i + 1) hi
      rw [if_pos hi, if_pos (by omega)]
      omega
    · rw [if_neg hi]
      omega
  · rw [shiftedDiagram_subset]
    intro i
    rw [getD_trim, getD_lowered, getD_lowered]
    by_cases hi : i < R
    · have := hf.bound i (by omega) hi
      rw [if_pos hi, if_pos hi]
      omega
    · rw [if_neg hi, if_neg hi]
  · rw [hlen, hd]
    have := hF (R - 1) (by omega)
    omega
  · have hrow : ∀ i < R, ∀ j : Nat, (mu0.getD i 0 + i < j ∧ j ≤ nu0.getD i 0 + i) ↔ (G i + i < j ∧ j ≤ F i + i) := by
      intro i hi j
      by_cases h1 : mu0.getD i 0 < nu0.getD i 0
      · obtain ⟨h2, h3⟩ := hf.full i (by omega) hi h1
        rw [h2, h3]
      · have h2 := hf.gap i (by omega) hi (by omega)
        omega
    constructor
    · rintro ⟨i, j⟩ hij
      rw [hd] at hij
      have h1 := hG (i - 1) hij.2.1
      refine ⟨(i, j + c), (hbox _ _).2 ⟨hij.1, (hrow (i - 1) hij.2.1 (j + c)).2 ⟨by omega, by omega⟩⟩, ?_, ?_⟩
      · dsimp only; omega
      · dsimp only; omega
    · rintro ⟨i, j⟩ hij
      rw [hbox] at hij
      have hi : i - 1 < R := by
        by_contra h1
        have := hR.above (i - 1) (by omega)
        omega
      have h1 := hG (i - 1) hi
      have h2 := (hrow (i - 1) hi j).1 hij.2
      refine ⟨(i, j - c), (hd _ _).2 ⟨hij.1, hi, by omega, by omega⟩, ?_, ?_⟩
      · dsimp only; omega
      · dsimp only; omega
  · intro i hi he
    rw [hlen] at hi
    rw [getD_trim, getD_lowered, getD_lowered, if_pos hi, if_pos hi] at he
    have h1 := hG i hi
    have h2 := hF i hi
    have h3 : nu0.getD i 0 ≤ mu0.getD i 0 := by
      by_contra h4
      have := hf.full i (by omega) hi (by omega)
      omega
    have h4 := hf.nextGap i (by omega) hi h3
    have h5 : i + 1 < R := by
      by_contra h6
      have h7 : i = R - 1 := by omega
      have := hR.last
      rw [← h7] at this
      omega
    have h6 := hF (i + 1) h5
    rw [getD_lowered, getD_lowered, if_pos hi, if_pos h5]
    omega

/-- C114: `from_skew` never ends on the empty set. -/
theorem C114_empty (shifted : Bool) (fuel : Nat) : fromSkew fuel [] shifted = none := by
  have h : ∀ f, skewLeft f [] [] = none := by
    intro f
    induction f with
    | zero => rfl
    | succ f ih => rw [skewLeft, if_pos rfl]; exact ih
  cases shifted <;> exact h fuel

example : IsPartition [5, 4, 4] ∧ IsPartition [4, 4, 2] ∧ fromSkew 9 [(1, 5), (3, 3), (3, 4)] false = some ([3, 2, 2], [2, 2]) := by
  refine ⟨⟨by decide, by decide⟩, ⟨by decide, by decide⟩, by decide +kernel⟩

example : IsStrict [7, 5, 3] ∧ IsStrict [6, 5, 1] ∧ fromSkew 9 [(1, 7), (3, 4), (3, 5)] true = some ([6, 3, 2], [5, 3]) := by
  refine ⟨⟨by decide, by decide⟩, ⟨by decide, by decide⟩, by decide +kernel⟩

end Verif.Partition
