import Verif.Lemmas.LevelFill

/-! The tableaux listed by `_KLG_helper` (tableaux.py:1127-1156). -/

attribute [-simp] List.getD_eq_getElem?_getD

namespace Verif.Tableaux

open Verif.Partition Verif.Part

/-- The position of a letter in the order `1' < 1 < 2' < 2 < ...`. -/
def klgLev (x : Int) : Nat := if x < 0 then (-2 * x - 1).toNat else (2 * x).toNat

theorem letterLt_iff {x y : Int} : LetterLt x y ↔ klgLev x < klgLev y := by
  rw [LetterLt, klgLev, klgLev]
  have hx : |x| = if x < 0 then -x else x := by
    split
    · rw [abs_of_neg (by omega)]
    · rw [abs_of_nonneg (by omega)]
  have hy : |y| = if y < 0 then -y else y := by
    split
    · rw [abs_of_neg (by omega)]
    · rw [abs_of_nonneg (by omega)]
  rw [hx, hy]
  split <;> split <;> omega

theorem eq_klgLabel {x : Int} {t : Nat} : x = klgLabel t ↔ klgLev x = t := by
  rw [klgLabel, klgLev]
  split <;> split <;> omega

theorem klgLabel_injective : Function.Injective klgLabel := fun a b e => by
  have h1 := eq_klgLabel.1 (rfl : klgLabel a = klgLabel a)
  have h2 := eq_klgLabel.1 e
  omega

theorem klgLabel_pos {t : Nat} : 0 < klgLabel (t + 1) ↔ (t + 1) % 2 = 0 := by
  rw [klgLabel]
  split <;> omega

theorem klgLabel_neg {t : Nat} : klgLabel (t + 1) < 0 ↔ (t + 1) % 2 = 1 := by
  rw [klgLabel]
  split <;> omega

/-- The choice of boxes in L1135-1152. -/
def klgChoose (ord : List (Nat × Nat) → List (Nat × Nat)) (t : Nat) (F : List Cell) (L : List (Nat × Nat)) : List (List (Nat × Nat)) :=
  if L.length = 0 ∧ klgLabel t > 0 then []
  else subsetsFrom (ord (klgCorners (klgLabel t) F L))
    (if klgLabel t < 0 ∧ F.any (fun c => decide (c.2 = -klgLabel t)) = false then 1 else 0)

theorem klgHelper_eq (ord : List (Nat × Nat) → List (Nat × Nat)) (t : Nat) : ∀ (F : List Cell) (L : List (Nat × Nat)),
    klgHelper ord t F L = levels (klgChoose ord) klgLabel t F L := by
  induction t with
  | zero => intro F L; rfl
  | succ n ih =>
    intro F L
    rw [klgHelper, levels, klgChoose]
    dsimp only
    split
    · rfl
    · simp only [subsetsFrom, List.flatMap_assoc, ih]

theorem nodup_klgCorners (n : Int) (F : List Cell) (L : List (Nat × Nat)) : (klgCorners n F L).Nodup := L.nodup_dedup.filter _

theorem klgChoose_ok {ord : List (Nat × Nat) → List (Nat × Nat)} (ho : ∀ l, (ord l).Perm l) : ChooseOk (klgChoose ord) := by
  have hn : ∀ n F L, (ord (klgCorners n F L)).Nodup := fun n F L => (ho _).nodup_iff.2 (nodup_klgCorners n F L)
  refine ⟨fun t F L _ s hs => ?_, fun t F L _ => ?_⟩
  · rw [klgChoose] at hs
    split at hs
    · simp at hs
    · rw [mem_subsetsFrom] at hs
      refine ⟨(hn _ F L).sublist hs.1, fun b hb => ?_⟩
      have := (ho _).mem_iff.1 (hs.1.subset hb)
      rw [klgCorners, List.mem_filter, List.mem_dedup] at this
      exact this.1
  · rw [klgChoose]
    split
    · exact List.Pairwise.nil
    · exact differ_subsetsFrom (hn _ F L) _

theorem mem_klgCorners {n : Int} {F : List Cell} {L : List (Nat × Nat)} {b : Nat × Nat} : b ∈ klgCorners n F L ↔
    b ∈ L ∧ (b.1, b.2 + 1) ∉ L ∧ (b.1 + 1, b.2) ∉ L ∧ (b.1 ≠ b.2 ∨ n > 0) ∧
      (∀ c ∈ F, SouthWest b c.1 → 0 ≤ c.2) ∧ (n < 0 ∨ ∀ c ∈ F, ¬ SouthWest c.1 b) := by
  rw [klgCorners, List.mem_filter, List.mem_dedup]
  refine and_congr_right fun _ => ?_
  simp only [Bool.and_eq_true, decide_eq_true_eq, Bool.not_eq_true', and_assoc, Bool.or_eq_true]
  refine and_congr_right fun _ => and_congr_right fun _ => and_congr_right fun _ => and_congr ?_ (or_congr_right ?_)
  · rw [List.any_eq_false]
    refine forall_congr' fun c => forall_congr' fun _ => ?_
    simp only [Bool.and_eq_true, decide_eq_true_eq, SouthWest]
    omega
  · rw [List.any_eq_false]
    refine forall_congr' fun c => forall_congr' fun _ => ?_
    simp only [Bool.and_eq_true, decide_eq_true_eq, SouthWest]

/-- What is required of the boxes with the letter in position `u`. -/
def KlgLevel (R : List (Nat × Nat)) (u : Nat) (f : Nat × Nat → Int) : Prop :=
  (u % 2 = 0 → ∃ b ∈ R, klgLev (f b) ≤ u) ∧ (u % 2 = 1 → (∃ b ∈ R, klgLev (f b) = u + 1) ∨ ∃ b ∈ R, klgLev (f b) = u) ∧
    ∀ b ∈ R, klgLev (f b) = u →
    ((b.1, b.2 + 1) ∈ R → u < klgLev (f (b.1, b.2 + 1))) ∧ ((b.1 + 1, b.2) ∈ R → u < klgLev (f (b.1 + 1, b.2))) ∧
      (b.1 ≠ b.2 ∨ u % 2 = 0) ∧
      (∀ c ∈ R, u < klgLev (f c) → SouthWest b c → 0 ≤ f c) ∧ (u % 2 = 1 ∨ ∀ c ∈ R, u < klgLev (f c) → ¬ SouthWest c b)

theorem klgChoose_level {ord : List (Nat × Nat) → List (Nat × Nat)} (ho : ∀ l, (ord l).Perm l) (R : List (Nat × Nat)) (t : Nat)
    (F : List Cell) (L : List (Nat × Nat)) (f : Nat × Nat → Int) (h : Split klgLabel R f (t + 1) F L)
    (hlev : ∀ b ∈ L, ∃ u : Nat, 1 ≤ u ∧ u ≤ t + 1 ∧ f b = klgLabel u) :
    (∃ s ∈ klgChoose ord (t + 1) F L, ∀ b, b ∈ s ↔ b ∈ L ∧ f b = klgLabel (t + 1)) ↔ KlgLevel R (t + 1) f := by
  have hup : ∀ b, (b, f b) ∈ F → t + 1 < klgLev (f b) := fun b hb => by
    obtain ⟨u, hu, hu2⟩ := h.above _ hb
    rw [eq_klgLabel.1 hu2]
    exact hu
  have hlo : ∀ b ∈ L, klgLev (f b) ≤ t + 1 := fun b hb => by
    obtain ⟨u, _, hu, hu2⟩ := hlev b hb
    rw [eq_klgLabel.1 hu2]
    exact hu
  have hF : ∀ b, (b, f b) ∈ F ↔ b ∈ R ∧ t + 1 < klgLev (f b) := fun b => by
    constructor
    · intro hb
      exact ⟨h.mem.2 (Or.inl hb), hup b hb⟩
    · rintro ⟨h1, h2⟩
      refine (h.mem.1 h1).resolve_right (fun hb => ?_)
      have := hlo b hb
      omega
  have hL : ∀ b, b ∈ L ↔ b ∈ R ∧ klgLev (f b) ≤ t + 1 := fun b => by
    constructor
    · intro hb
      exact ⟨h.mem.2 (Or.inr hb), hlo b hb⟩
    · rintro ⟨h1, h2⟩
      refine (h.mem.1 h1).resolve_left (fun hb => ?_)
      have := hup b hb
      omega
  have hFc : ∀ c ∈ F, c = (c.1, f c.1) := fun c hc => by rw [h.agree c hc]
  have hall : ∀ P : Cell → Prop, (∀ c ∈ F, P c) ↔ ∀ b ∈ R, t + 1 < klgLev (f b) → P (b, f b) := fun P => by
    constructor
    · intro hP b hb hfb
      exact hP _ ((hF b).2 ⟨hb, hfb⟩)
    · intro hP c hc
      have hc' := hc
      rw [hFc c hc] at hc' ⊢
      exact hP c.1 ((hF _).1 hc').1 ((hF _).1 hc').2
  have hcor : ∀ b, b ∈ L → klgLev (f b) = t + 1 → (b ∈ ord (klgCorners (klgLabel (t + 1)) F L) ↔
      ((b.1, b.2 + 1) ∈ R → t + 1 < klgLev (f (b.1, b.2 + 1))) ∧ ((b.1 + 1, b.2) ∈ R → t + 1 < klgLev (f (b.1 + 1, b.2))) ∧
      (b.1 ≠ b.2 ∨ (t + 1) % 2 = 0) ∧
      (∀ c ∈ R, t + 1 < klgLev (f c) → SouthWest b c → 0 ≤ f c) ∧
      ((t + 1) % 2 = 1 ∨ ∀ c ∈ R, t + 1 < klgLev (f c) → ¬ SouthWest c b)) := fun b hb hfb => by
    rw [(ho _).mem_iff, mem_klgCorners, and_iff_right hb, hL, hL, gt_iff_lt, klgLabel_pos, klgLabel_neg, hall, hall]
    refine and_congr (by rw [not_and, not_le]) (and_congr (by rw [not_and, not_le]) Iff.rfl)
  have hany : F.any (fun c => decide (c.2 = -klgLabel (t + 1))) = false ∧ klgLabel (t + 1) < 0 ↔
      (t + 1) % 2 = 1 ∧ ∀ b ∈ R, klgLev (f b) ≠ t + 1 + 1 := by
    rw [klgLabel_neg, and_comm]
    refine and_congr_right fun ht => ?_
    rw [List.any_eq_false]
    simp only [decide_eq_true_eq]
    have e : -klgLabel (t + 1) = klgLabel (t + 1 + 1) := by
      rw [klgLabel, klgLabel, if_neg (by omega), if_pos (by omega), neg_neg]
    rw [e, hall (fun c => ¬ c.2 = klgLabel (t + 1 + 1))]
    refine forall_congr' fun b => forall_congr' fun _ => ?_
    rw [eq_klgLabel]
    dsimp only
    omega
  rw [klgChoose]
  have hP : ∀ b, (b ∈ L ∧ f b = klgLabel (t + 1)) ↔ (b ∈ R ∧ klgLev (f b) = t + 1) := fun b => by
    rw [eq_klgLabel, hL]
    constructor
    · rintro ⟨⟨h1, _⟩, h2⟩; exact ⟨h1, h2⟩
    · rintro ⟨h1, h2⟩; exact ⟨⟨h1, h2.le⟩, h2⟩
  have h1 : (L.length = 0 ∧ klgLabel (t + 1) > 0) ↔ ¬ ((t + 1) % 2 = 0 → ∃ b ∈ R, klgLev (f b) ≤ t + 1) := by
    rw [gt_iff_lt, klgLabel_pos, Classical.not_imp, and_comm, List.length_eq_zero_iff, List.eq_nil_iff_forall_not_mem]
    refine and_congr_right fun _ => ?_
    push Not
    refine forall_congr' fun b => ?_
    rw [hL, not_and, not_le]
  split
  · rename_i h2
    simp only [List.not_mem_nil, false_and, exists_false, false_iff]
    intro h3
    exact h1.1 h2 h3.1
  · rename_i h2
    have h2' := Classical.not_not.1 (fun hh => h2 (h1.2 hh))
    rw [exists_subsetsFrom (by split <;> omega), KlgLevel, and_iff_right h2', and_comm]
    refine and_congr ?_ ?_
    · constructor
      · intro h3 ht
        by_cases h4 : ∃ b ∈ R, klgLev (f b) = t + 1 + 1
        · exact Or.inl h4
        · right
          push Not at h4
          obtain ⟨b, hb⟩ := h3 (if_pos (by rw [and_comm]; exact hany.2 ⟨ht, h4⟩))
          exact ⟨b, (hP b).1 hb⟩
      · intro h3 h4
        split at h4
        · rename_i h5
          rw [and_comm, hany] at h5
          rcases h3 h5.1 with ⟨b, hb, hb2⟩ | ⟨b, hb⟩
          · exact absurd hb2 (h5.2 b hb)
          · exact ⟨b, (hP b).2 hb⟩
        · omega
    · refine forall_congr' fun b => ?_
      rw [hP]
      constructor
      · intro hh hb hfb
        exact (hcor b ((hL b).2 ⟨hb, hfb.le⟩) hfb).1 (hh ⟨hb, hfb⟩)
      · rintro hh ⟨hb, hfb⟩
        exact (hcor b ((hL b).2 ⟨hb, hfb.le⟩) hfb).2 (hh hb hfb)

theorem isKLG_iff {R : List (Nat × Nat)} {p : Nat} {f : Nat × Nat → Int} (h0 : ∀ b, b ∉ R → f b = 0) :
    ((∀ b ∈ R, ∃ u : Nat, 1 ≤ u ∧ u ≤ 2 * p ∧ f b = klgLabel u) ∧ ∀ u, 1 ≤ u → u ≤ 2 * p → KlgLevel R u f) ↔ IsKLG {b | b ∈ R} p f := by
  have habs : ∀ x : Int, |x| = if x < 0 then -x else x := fun x => by
    split
    · rw [abs_of_neg (by omega)]
    · rw [abs_of_nonneg (by omega)]
  constructor
  · rintro ⟨h1, h2⟩
    have hl : ∀ b ∈ R, 1 ≤ klgLev (f b) ∧ klgLev (f b) ≤ 2 * p ∧ KlgLevel R (klgLev (f b)) f := fun b hb => by
      obtain ⟨u, hu1, hu2, hu3⟩ := h1 b hb
      rw [eq_klgLabel.1 hu3]
      exact ⟨hu1, hu2, h2 u hu1 hu2⟩
    refine ⟨h0, ?_, ?_, ?_, ?_, ?_, ?_⟩
    · intro i j hij hij'
      rw [letterLt_iff]
      exact ((hl _ hij).2.2.2.2 _ hij rfl).1 hij'
    · intro i j hij hij'
      rw [letterLt_iff]
      exact ((hl _ hij).2.2.2.2 _ hij rfl).2.1 hij'
    · intro i hi
      obtain ⟨h3, _, h4⟩ := hl _ hi
      have := (h4.2.2 _ hi rfl).2.2.1.resolve_left (by simp)
      rw [klgLev] at this h3
      split at this <;> simp_all <;> omega
    · intro b hb hneg c hc hcb
      rw [letterLt_iff]
      intro hlt
      have := ((hl c hc).2.2.2.2 c hc rfl).2.2.2.1 b hb hlt hcb
      omega
    · intro b hb hpos c hc hcb
      rw [letterLt_iff]
      intro hlt
      rcases ((hl b hb).2.2.2.2 b hb rfl).2.2.2.2 with h3 | h3
      · rw [klgLev, if_neg (by omega)] at h3
        omega
      · exact h3 c hc hlt hcb
    · ext x
      simp only [Set.mem_image, Set.mem_ofPred_eq, Set.mem_Icc]
      constructor
      · rintro ⟨b, hb, rfl⟩
        obtain ⟨h3, h4, _⟩ := hl b hb
        rw [klgLev] at h3 h4
        rw [habs]
        split <;> simp_all <;> omega
      · rintro ⟨hx1, hx2⟩
        have h3 := (h2 (2 * x.toNat - 1) (by omega) (by omega)).2.1 (by omega)
        rcases h3 with ⟨b, hb, hfb⟩ | ⟨b, hb, hfb⟩
        all_goals
          refine ⟨b, hb, ?_⟩
          rw [habs]
          rw [klgLev] at hfb
          split at hfb
          · rw [if_pos (by assumption)]; omega
          · rw [if_neg (by assumption)]; omega
  · intro h
    have hr : ∀ b ∈ R, 1 ≤ |f b| ∧ |f b| ≤ p := fun b hb => by
      have : |f b| ∈ (fun b => |f b|) '' {b | b ∈ R} := ⟨b, hb, rfl⟩
      rw [h.content] at this
      exact this
    have hlv : ∀ b ∈ R, 1 ≤ klgLev (f b) ∧ klgLev (f b) ≤ 2 * p := fun b hb => by
      have := hr b hb
      rw [habs] at this
      rw [klgLev]
      split at this
      · rw [if_pos (by assumption)]; omega
      · rw [if_neg (by assumption)]; omega
    have hex : ∀ k : Nat, 1 ≤ k → k ≤ p → ∃ b ∈ R, klgLev (f b) = 2 * k ∨ klgLev (f b) = 2 * k - 1 := fun k h1 h2 => by
      have : (k : Int) ∈ Set.Icc 1 (p : Int) := by rw [Set.mem_Icc]; omega
      rw [← h.content] at this
      obtain ⟨b, hb, hfb⟩ := this
      refine ⟨b, hb, ?_⟩
      dsimp only at hfb
      rw [habs] at hfb
      rw [klgLev]
      split at hfb
      · rw [if_pos (by assumption)]; omega
      · rw [if_neg (by assumption)]; omega
    refine ⟨fun b hb => ⟨klgLev (f b), (hlv b hb).1, (hlv b hb).2, eq_klgLabel.2 rfl⟩, fun u hu1 hu2 => ⟨?_, ?_, ?_⟩⟩
    · intro hu
      obtain ⟨b, hb, h1⟩ := hex (u / 2) (by omega) (by omega)
      exact ⟨b, hb, by omega⟩
    · intro hu
      obtain ⟨b, hb, h1⟩ := hex ((u + 1) / 2) (by omega) (by omega)
      rcases h1 with h1 | h1
      · exact Or.inl ⟨b, hb, by omega⟩
      · exact Or.inr ⟨b, hb, by omega⟩
    · intro b hb hfb
      have hsgn : ∀ c ∈ R, (f c < 0 ↔ klgLev (f c) % 2 = 1) ∧ (0 < f c ↔ klgLev (f c) % 2 = 0) := fun c hc => by
        have h1 := hlv c hc
        rw [klgLev] at h1 ⊢
        split at h1
        · rw [if_pos (by assumption)]; omega
        · rw [if_neg (by assumption)]; omega
      refine ⟨fun hb' => ?_, fun hb' => ?_, ?_, ?_, ?_⟩
      · have := letterLt_iff.1 (h.rows _ _ hb hb')
        rw [← hfb]
        exact this
      · have := letterLt_iff.1 (h.columns _ _ hb hb')
        rw [← hfb]
        exact this
      · by_cases e : b.1 = b.2
        · right
          obtain ⟨i, j⟩ := b
          simp only at e
          subst e
          have h1 := (hsgn _ hb).2.1 (h.diagonal i hb)
          omega
        · exact Or.inl e
      · intro c hc hlt hs
        by_contra hn
        have := h.primed c hc (by omega) b hb hs
        rw [letterLt_iff] at this
        omega
      · by_cases e : u % 2 = 1
        · exact Or.inl e
        · right
          intro c hc hlt hs
          have := h.unprimed b hb ((hsgn b hb).2.2 (by omega)) c hc hs
          rw [letterLt_iff] at this
          omega

theorem klgHelper_spec {ord : List (Nat × Nat) → List (Nat × Nat)} (ho : ∀ l, (ord l).Perm l) {R : List (Nat × Nat)} (hR : R.Nodup) (p : Nat) :
    ((klgHelper ord (2 * p) [] R).map tabOfCells).Nodup ∧
      ∀ T, T ∈ (klgHelper ord (2 * p) [] R).map tabOfCells ↔ ∃ f, IsKLG {b | b ∈ R} p f ∧ Fills T {b | b ∈ R} f := by
  rw [klgHelper_eq ord]
  obtain ⟨h1, h2, h3⟩ := levels_tabs (klgChoose_ok ho) klgLabel_injective hR
    (C := KlgLevel R) (fun t F L f h hl => klgChoose_level ho R t F L f h hl) (2 * p)
  refine ⟨h1, fun T => ⟨fun hT => ?_, ?_⟩⟩
  · obtain ⟨f, hf, h0⟩ := h2 T hT
    exact ⟨f, (isKLG_iff h0).1 ((h3 T f hf).1 hT), hf⟩
  · rintro ⟨f, hk, hf⟩
    exact (h3 T f hf).2 ((isKLG_iff hk.off).2 hk)

end Verif.Tableaux
