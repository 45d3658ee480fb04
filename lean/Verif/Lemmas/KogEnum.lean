import Verif.Lemmas.LevelFill

/-! The tableaux listed by `_KOG_helper` (tableaux.py:1025-1050). -/

attribute [-simp] List.getD_eq_getElem?_getD

namespace Verif.Tableaux

open Verif.Partition Verif.Part

/-- The choice of boxes in L1035-1046. -/
def kogChoose (ord : List (Nat × Nat) → List (Nat × Nat)) (_t : Nat) (F : List Cell) (L : List (Nat × Nat)) : List (List (Nat × Nat)) :=
  subsetsFrom (ord (kogCorners F L)) 1

theorem kogHelper_eq (ord : List (Nat × Nat) → List (Nat × Nat)) (ho : ∀ l, (ord l).Perm l) (n : Nat) : ∀ (F : List Cell) (L : List (Nat × Nat)),
    kogHelper ord n F L = levels (kogChoose ord) (fun t => (t : Int)) n F L := by
  induction n with
  | zero => intro F L; rfl
  | succ n ih =>
    intro F L
    rw [kogHelper, levels]
    split
    · rename_i h
      have hL : L = [] := List.length_eq_zero_iff.1 h
      subst hL
      have : ord (kogCorners F []) = [] := by
        have := ho (kogCorners F [])
        have e : kogCorners F [] = [] := rfl
        rw [e] at this ⊢
        exact List.perm_nil.1 this
      rw [kogChoose, this]
      rfl
    · simp only [kogChoose, subsetsFrom, List.flatMap_assoc, Nat.add_sub_cancel, ih]

theorem nodup_kogCorners (F : List Cell) (L : List (Nat × Nat)) : (kogCorners F L).Nodup := L.nodup_dedup.filter _

theorem kogChoose_ok {ord : List (Nat × Nat) → List (Nat × Nat)} (ho : ∀ l, (ord l).Perm l) : ChooseOk (kogChoose ord) := by
  have hn : ∀ F L, (ord (kogCorners F L)).Nodup := fun F L => (ho _).nodup_iff.2 (nodup_kogCorners F L)
  refine ⟨fun t F L _ s hs => ?_, fun t F L _ => differ_subsetsFrom (hn F L) 1⟩
  rw [kogChoose, mem_subsetsFrom] at hs
  refine ⟨(hn F L).sublist hs.1, fun b hb => ?_⟩
  have := (ho _).mem_iff.1 (hs.1.subset hb)
  rw [kogCorners, List.mem_filter, List.mem_dedup] at this
  exact this.1

theorem mem_kogCorners {F : List Cell} {L : List (Nat × Nat)} {b : Nat × Nat} : b ∈ kogCorners F L ↔
    b ∈ L ∧ (b.1, b.2 + 1) ∉ L ∧ (b.1 + 1, b.2) ∉ L ∧
      ∀ c1 ∈ F, ∀ c2 ∈ F, SouthWest b c1.1 → SouthWest c2.1 c1.1 → c2.2 ≤ c1.2 := by
  rw [kogCorners, List.mem_filter, List.mem_dedup]
  refine and_congr_right fun _ => ?_
  simp only [Bool.and_eq_true, decide_eq_true_eq, Bool.not_eq_true', and_assoc]
  refine and_congr_right fun _ => and_congr_right fun _ => ?_
  rw [List.any_eq_false]
  refine forall_congr' fun c1 => forall_congr' fun _ => ?_
  rw [Bool.not_eq_true, List.any_eq_false]
  refine forall_congr' fun c2 => forall_congr' fun _ => ?_
  simp only [Bool.and_eq_true, decide_eq_true_eq, SouthWest]
  omega

/-- What is required of the boxes with the label `u`. -/
def KogLevel (R : List (Nat × Nat)) (u : Nat) (f : Nat × Nat → Int) : Prop :=
  (∃ b ∈ R, f b = u) ∧ ∀ b ∈ R, f b = u →
    ((b.1, b.2 + 1) ∈ R → f b < f (b.1, b.2 + 1)) ∧ ((b.1 + 1, b.2) ∈ R → f b < f (b.1 + 1, b.2)) ∧
      ∀ c1 ∈ R, ∀ c2 ∈ R, SouthWest b c1 → SouthWest c2 c1 → f b < f c1 → f b < f c2 → f c2 ≤ f c1

theorem kogChoose_level {ord : List (Nat × Nat) → List (Nat × Nat)} (ho : ∀ l, (ord l).Perm l) (R : List (Nat × Nat)) (t : Nat)
    (F : List Cell) (L : List (Nat × Nat)) (f : Nat × Nat → Int) (h : Split (fun t => (t : Int)) R f (t + 1) F L)
    (hlev : ∀ b ∈ L, ∃ u : Nat, 1 ≤ u ∧ u ≤ t + 1 ∧ f b = u) :
    (∃ s ∈ kogChoose ord (t + 1) F L, ∀ b, b ∈ s ↔ b ∈ L ∧ f b = ((t + 1 : Nat) : Int)) ↔ KogLevel R (t + 1) f := by
  rw [kogChoose, exists_subsetsFrom le_rfl]
  have hup : ∀ b, (b, f b) ∈ F → ((t + 1 : Nat) : Int) < f b := fun b hb => by
    obtain ⟨u, hu, hu2⟩ := h.above _ hb
    simp only at hu2
    rw [hu2]
    exact_mod_cast hu
  have hlo : ∀ b ∈ L, f b ≤ ((t + 1 : Nat) : Int) := fun b hb => by
    obtain ⟨u, _, hu, hu2⟩ := hlev b hb
    rw [hu2]
    exact_mod_cast hu
  have hF : ∀ b, (b, f b) ∈ F ↔ b ∈ R ∧ ((t + 1 : Nat) : Int) < f b := fun b => by
    constructor
    · intro hb
      exact ⟨h.mem.2 (Or.inl hb), hup b hb⟩
    · rintro ⟨h1, h2⟩
      refine (h.mem.1 h1).resolve_right (fun hb => ?_)
      have := hlo b hb
      omega
  have hL : ∀ b, b ∈ L ↔ b ∈ R ∧ f b ≤ ((t + 1 : Nat) : Int) := fun b => by
    constructor
    · intro hb
      exact ⟨h.mem.2 (Or.inr hb), hlo b hb⟩
    · rintro ⟨h1, h2⟩
      refine (h.mem.1 h1).resolve_left (fun hb => ?_)
      have := hup b hb
      omega
  have hFc : ∀ c ∈ F, c = (c.1, f c.1) := fun c hc => by rw [h.agree c hc]
  have hall : ∀ P : Cell → Prop, (∀ c ∈ F, P c) ↔ ∀ b ∈ R, ((t + 1 : Nat) : Int) < f b → P (b, f b) := fun P => by
    constructor
    · intro hP b hb hfb
      exact hP _ ((hF b).2 ⟨hb, hfb⟩)
    · intro hP c hc
      have hc' := hc
      rw [hFc c hc] at hc' ⊢
      exact hP c.1 ((hF _).1 hc').1 ((hF _).1 hc').2
  have hcor : ∀ b, b ∈ L → f b = ((t + 1 : Nat) : Int) → (b ∈ ord (kogCorners F L) ↔
      ((b.1, b.2 + 1) ∈ R → f b < f (b.1, b.2 + 1)) ∧ ((b.1 + 1, b.2) ∈ R → f b < f (b.1 + 1, b.2)) ∧
      ∀ c1 ∈ R, ∀ c2 ∈ R, SouthWest b c1 → SouthWest c2 c1 → f b < f c1 → f b < f c2 → f c2 ≤ f c1) := fun b hb hfb => by
    rw [(ho _).mem_iff, mem_kogCorners, and_iff_right hb, hL, hL, hfb]
    refine and_congr (by rw [not_and, not_le]) (and_congr (by rw [not_and, not_le]) ?_)
    rw [hall]
    refine forall_congr' fun c1 => forall_congr' fun h1 => ?_
    constructor
    · intro hh c2 h2 hs1 hs2 hf1 hf2
      exact (hall (fun c2 => SouthWest b c1 → SouthWest c2.1 c1 → c2.2 ≤ f c1)).1 (hh hf1) c2 h2 hf2 hs1 hs2
    · intro hh hf1
      rw [hall (fun c2 => SouthWest b c1 → SouthWest c2.1 c1 → c2.2 ≤ f c1)]
      intro c2 h2 hf2 hs1 hs2
      exact hh c2 h2 hs1 hs2 hf1 hf2
  constructor
  · rintro ⟨h1, h2⟩
    obtain ⟨b, hb, hfb⟩ := h2 rfl
    refine ⟨⟨b, ((hL b).1 hb).1, hfb⟩, fun b hb hfb => ?_⟩
    have hbL := (hL b).2 ⟨hb, hfb.le⟩
    exact (hcor b hbL hfb).1 (h1 b ⟨hbL, hfb⟩)
  · rintro ⟨⟨b, hb, hfb⟩, h2⟩
    refine ⟨fun b hb => (hcor b hb.1 hb.2).2 (h2 b ((hL b).1 hb.1).1 hb.2), fun _ => ⟨b, (hL b).2 ⟨hb, hfb.le⟩, hfb⟩⟩

theorem isKOG_iff {R : List (Nat × Nat)} {p : Nat} {f : Nat × Nat → Int} (h0 : ∀ b, b ∉ R → f b = 0) :
    ((∀ b ∈ R, ∃ u : Nat, 1 ≤ u ∧ u ≤ p ∧ f b = u) ∧ ∀ u, 1 ≤ u → u ≤ p → KogLevel R u f) ↔ IsKOG {b | b ∈ R} p f := by
  constructor
  · rintro ⟨h1, h2⟩
    have hl : ∀ b ∈ R, ∃ u : Nat, f b = u ∧ KogLevel R u f := fun b hb => by
      obtain ⟨u, hu1, hu2, hu3⟩ := h1 b hb
      exact ⟨u, hu3, h2 u hu1 hu2⟩
    refine ⟨h0, ?_, ?_, ?_, ?_⟩
    · intro i j hij hij'
      obtain ⟨u, hu, hk⟩ := hl _ hij
      exact (hk.2 _ hij hu).1 hij'
    · intro i j hij hij'
      obtain ⟨u, hu, hk⟩ := hl _ hij
      exact (hk.2 _ hij hu).2.1 hij'
    · intro b hb
      by_contra hc
      push Not at hc
      obtain ⟨⟨c, hc1, hc2, hc3⟩, ⟨d, hd1, hd2, hd3⟩⟩ := hc
      obtain ⟨u, hu, hk⟩ := hl c hc1
      have := (hk.2 c hc1 hu).2.2 b hb d hd1 hc2 hd2 hc3 (by omega)
      omega
    · ext x
      simp only [Set.mem_image, Set.mem_ofPred_eq, Set.mem_Icc]
      constructor
      · rintro ⟨b, hb, rfl⟩
        obtain ⟨u, hu1, hu2, hu3⟩ := h1 b hb
        omega
      · rintro ⟨hx1, hx2⟩
        obtain ⟨b, hb, hfb⟩ := (h2 x.toNat (by omega) (by omega)).1
        exact ⟨b, hb, by omega⟩
  · intro h
    have hr : ∀ b ∈ R, 1 ≤ f b ∧ f b ≤ p := fun b hb => by
      have : f b ∈ f '' {b | b ∈ R} := ⟨b, hb, rfl⟩
      rw [h.content] at this
      exact this
    refine ⟨fun b hb => ⟨(f b).toNat, by have := hr b hb; omega, by have := hr b hb; omega, by have := hr b hb; omega⟩, fun u hu1 hu2 => ⟨?_, ?_⟩⟩
    · have : ((u : Nat) : Int) ∈ Set.Icc 1 (p : Int) := by
        rw [Set.mem_Icc]; omega
      rw [← h.content] at this
      obtain ⟨b, hb, hfb⟩ := this
      exact ⟨b, hb, hfb⟩
    · intro b hb hfb
      refine ⟨fun hb' => h.rows _ _ hb hb', fun hb' => h.columns _ _ hb hb', ?_⟩
      intro c1 h1 c2 h2 hs1 hs2 hf1 hf2
      rcases h.southWest c1 h1 with h3 | h3
      · have := h3 b hb hs1
        omega
      · exact h3 c2 h2 hs2

theorem kogHelper_spec {ord : List (Nat × Nat) → List (Nat × Nat)} (ho : ∀ l, (ord l).Perm l) {R : List (Nat × Nat)} (hR : R.Nodup) (p : Nat) :
    ((kogHelper ord p [] R).map tabOfCells).Nodup ∧
      ∀ T, T ∈ (kogHelper ord p [] R).map tabOfCells ↔ ∃ f, IsKOG {b | b ∈ R} p f ∧ Fills T {b | b ∈ R} f := by
  rw [kogHelper_eq ord ho]
  obtain ⟨h1, h2, h3⟩ := levels_tabs (kogChoose_ok ho) (lab := fun t => (t : Int)) (fun a b e => by simpa using e) hR
    (C := KogLevel R) (fun t F L f h hl => kogChoose_level ho R t F L f h hl) p
  refine ⟨h1, fun T => ⟨fun hT => ?_, ?_⟩⟩
  · obtain ⟨f, hf, h0⟩ := h2 T hT
    exact ⟨f, (isKOG_iff h0).1 ((h3 T f hf).1 hT), hf⟩
  · rintro ⟨f, hk, hf⟩
    exact (h3 T f hf).2 ((isKOG_iff hk.off).2 hk)

end Verif.Tableaux
