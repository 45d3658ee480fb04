import Verif.Lemmas.ShiftedPieri
import Verif.Props.Insertion

/-! Shifted Hecke insertion of a word in positive even numbers. -/

namespace Verif.FInsertion

open Tab Verif.Part
open Insertion (values_eq mem_boxed boxed get?_apply values_length_apply recordList mappingAt has_of_mem_ent)

attribute [-simp] List.getD_eq_getElem?_getD

theorem insertAll_append : ∀ (w : List Int) (k : Nat) (p q : Tab) (a : Int),
    insertAll k p q (w ++ [a]) = (insertAll k p q w).bind (fun r => push r.1 r.2 (k + w.length + 1) a)
  | [], k, p, q, a => by
    simp only [List.nil_append, insertAll, List.length_nil, Nat.add_zero, Option.bind_some]
    cases push p q (k + 1) a <;> rfl
  | c :: w, k, p, q, a => by
    simp only [List.cons_append, insertAll]
    cases h : push p q (k + 1) c with
    | none => rfl
    | some r =>
      obtain ⟨p', q'⟩ := r
      simp only
      rw [insertAll_append w (k + 1) p' q' a]
      simp only [List.length_cons]
      rw [show k + 1 + w.length + 1 = k + (w.length + 1) + 1 by omega]

/-- The state after inserting `w`, with the boxes `β` and the signs `ε` of the recording tableau. -/
structure SDone (w : List Int) (p q : Tab) (E H : Nat → Nat) (f : Nat → Nat → Int) (β : Nat → Nat × Nat) (ε : Nat → Bool) :
    Prop where
  run : insertionTableaux w = some (p, q)
  inc : SInc p E H f
  qinv : SQInv q E w.length
  std : SStd q β ε w.length
  le : ∀ k, k + 1 < w.length → w.getD k 0 ≤ w.getD (k + 1) 0 → SRel (ε k) (ε (k + 1)) (β k) (β (k + 1))
  gt : ∀ k, k + 1 < w.length → w.getD (k + 1) 0 < w.getD k 0 → SRelS (flip β ε k) (flip β ε (k + 1)) (β k) (β (k + 1))
  back : ∀ fuel ans, inverseInsertion (fuel + w.length) p q ans = inverseInsertion fuel Tab.empty Tab.empty (w ++ ans)
  last : ∀ k, w.length = k + 1 → ∃ p0 E0 H0 f0, SInc p0 E0 H0 f0 ∧ Corner E0 E (β k) ∧ (ε k = true → (β k).1 ≠ (β k).2) ∧
    OneStep E0 H0 f0 (w.getD k 0) E H f (ε k) (β k)

theorem sinc_empty : SInc Tab.empty (fun i => i) (fun _ => 1) (fun _ _ => 0) where
  get i j := by rw [Tab.get?_empty, if_neg (by omega)]
  lo i _ := le_refl i
  anti i _ := Or.inl rfl
  one _ := le_refl 1
  col i j _ := by omega
  row i j _ _ _ := by omega
  cinc i j _ _ _ := by omega
  pos i j _ _ _ := by omega
  even i j _ _ _ := by omega

theorem sqinv_empty : SQInv Tab.empty (fun i => i) 0 := by
  have h : ∀ b, Tab.empty.ent b = [] := by intro b; rw [Tab.ent, Tab.get?_empty]; rfl
  constructor
  · intro i j; rw [Tab.has, Tab.get?_empty]; simp
  · intro b; rw [h]; exact List.Pairwise.nil
  · intro b s hs; rw [Tab.get?_empty] at hs; cases hs
  · intro b x hx; rw [h] at hx; cases hx
  · intro n h1 h2; omega
  · intro b b' x x' hx; rw [h] at hx; cases hx
  · intro i j x y hx; rw [h] at hx; cases hx
  · intro i j x y hx; rw [h] at hx; cases hx
  · intro i x hx; rw [h] at hx; cases hx

theorem sdone_exists (w : List Int) (hw : ∀ a ∈ w, 0 < a) (he : ∀ a ∈ w, a % 2 = 0) :
    ∃ p q E H f β ε, SDone w p q E H f β ε := by
  induction w using List.reverseRecOn with
  | nil =>
    refine ⟨Tab.empty, Tab.empty, _, _, _, fun _ => (0, 0), fun _ => false, rfl, sinc_empty, sqinv_empty, sstd_empty, ?_, ?_, ?_, ?_⟩
    · intro k hk; simp at hk
    · intro k hk; simp at hk
    · intro fuel ans; rfl
    · intro k hk; simp at hk
  | append_singleton w a ih =>
    obtain ⟨p, q, E, H, f, β, ε, hd⟩ := ih (fun x hx => hw x (by simp [hx])) (fun x hx => he x (by simp [hx]))
    obtain ⟨p', b, neg, E1, H1, F, h1, h2, h3, h4, h5, h6, h7, h8⟩ :=
      push_run hd.inc hd.qinv (hw a (by simp)) (he a (by simp))
    have hget : ∀ k, k < w.length → (w ++ [a]).getD k 0 = w.getD k 0 := by
      intro k hk
      rw [List.getD_eq_getElem?_getD, List.getD_eq_getElem?_getD, List.getElem?_append_left hk]
    have hgetl : (w ++ [a]).getD w.length 0 = a := by
      rw [List.getD_eq_getElem?_getD, List.getElem?_append_right (le_refl _)]; simp
    have hlen : (w ++ [a]).length = w.length + 1 := by simp
    refine ⟨p', q.add b (sgn neg (w.length + 1)), E1, H1, F, fun k => if k = w.length then b else β k,
      fun k => if k = w.length then neg else ε k, ?_, h2, ?_, ?_, ?_, ?_, ?_, ?_⟩
    · have := hd.run
      unfold insertionTableaux at this ⊢
      rw [insertAll_append, this, Option.bind_some, Nat.zero_add]
      exact h1
    · rw [hlen]; exact h3
    · rw [hlen]; exact hd.std.add b neg
    · intro k hk hle
      rw [hlen] at hk
      by_cases hk1 : k + 1 = w.length
      · rw [hk1, hgetl, hget k (by omega)] at hle
        obtain ⟨p0, E0, H0, f0, l1, l2, l3, l4⟩ := hd.last k hk1.symm
        simp only [hk1, if_true, if_neg (show k ≠ w.length by omega)]
        exact pieri_le l1 hd.inc l2 l4 h8 hle
      · rw [hget k (by omega), hget (k + 1) (by omega)] at hle
        simp only [if_neg hk1, if_neg (show k ≠ w.length by omega)]
        exact hd.le k (by omega) hle
    · intro k hk hle
      rw [hlen] at hk
      by_cases hk1 : k + 1 = w.length
      · rw [hk1, hgetl, hget k (by omega)] at hle
        obtain ⟨p0, E0, H0, f0, l1, l2, l3, l4⟩ := hd.last k hk1.symm
        simp only [flip, hk1, if_true, if_neg (show k ≠ w.length by omega)]
        exact pieri_gt l1 hd.inc h2 l2 h6 l3 h7 l4 h8 hle
      · rw [hget k (by omega), hget (k + 1) (by omega)] at hle
        simp only [flip, if_neg hk1, if_neg (show k ≠ w.length by omega)]
        exact hd.gt k (by omega) hle
    · intro fuel ans
      rw [hlen, ← Nat.add_assoc, inverseInsertion, if_neg h5, h4]
      simp only
      rw [hd.back, List.append_assoc]
      rfl
    · intro k hk
      have hk : k = w.length := by omega
      subst hk
      refine ⟨p, E, H, f, hd.inc, ?_, ?_, ?_⟩
      · simpa using h6
      · simpa using h7
      · rw [hgetl]; simpa [OneStep] using h8

/-! ## The record -/

variable {w rec : List Int} {p q : Tab} {E H : Nat → Nat} {f : Nat → Nat → Int} {β : Nat → Nat × Nat} {ε : Nat → Bool}

theorem record_steps {m : Bool} (hrec : IsRecord w rec m) : ∀ i, i + 1 < w.length →
    rec.getD i 0 ≤ rec.getD (i + 1) 0 ∧
    ((if m then w.getD (i + 1) 0 < w.getD i 0 else w.getD i 0 ≤ w.getD (i + 1) 0) → rec.getD i 0 < rec.getD (i + 1) 0) := by
  have hget' : ∀ (l : List Int) i, i < l.length → l[i]? = some (l.getD i 0) := by
    intro l i h; rw [List.getD_eq_getElem?_getD, List.getElem?_eq_getElem h]; rfl
  intro i hi
  exact hrec.2 i _ _ _ _ (hget' w i (by omega)) (hget' w (i + 1) (by omega))
    (hget' rec i (by have := hrec.1; omega)) (hget' rec (i + 1) (by have := hrec.1; omega))

theorem record_pos {m : Bool} (hrec : IsRecord w rec m) (hpos : ∀ x ∈ rec, 0 < x) : ∀ k, k < w.length → 0 < rec.getD k 0 := by
  intro k hk
  have hk' : k < rec.length := by have := hrec.1; omega
  rw [List.getD_eq_getElem?_getD, List.getElem?_eq_getElem hk']
  exact hpos _ (List.getElem_mem hk')

theorem scompat_true (hrec : IsRecord w rec true) (hpos : ∀ x ∈ rec, 0 < x) (hd : SDone w p q E H f β ε) :
    SCompat β ε (fun k => rec.getD k 0) w.length := by
  apply scompat_of_steps (record_pos hrec hpos)
  · intro k hk; exact (record_steps hrec k hk).1
  · intro k hk heq
    apply hd.le k hk
    by_contra hc
    have := (record_steps hrec k hk).2 (by simpa using hc)
    omega

theorem scompat_false (hrec : IsRecord w rec false) (hpos : ∀ x ∈ rec, 0 < x) (hd : SDone w p q E H f β ε) :
    SCompat β (flip β ε) (fun k => rec.getD k 0) w.length := by
  apply scompat_of_steps (record_pos hrec hpos)
  · intro k hk; exact (record_steps hrec k hk).1
  · intro k hk heq
    apply SRelS.rel
    apply hd.gt k hk
    by_contra hc
    have := (record_steps hrec k hk).2 (by simpa using hc)
    omega

theorem map_range_rec (rec : List Int) : (List.range rec.length).map (fun k : Nat => rec.getD k 0) = rec := by
  apply List.ext_getElem?
  intro i
  rw [List.getElem?_map]
  by_cases hi : i < rec.length
  · rw [List.getElem?_range hi, List.getElem?_eq_getElem hi, Option.map_some, List.getD_eq_getElem?_getD,
      List.getElem?_eq_getElem hi]
    rfl
  · rw [List.getElem?_eq_none (l := rec) (by omega), List.getElem?_eq_none (by rw [List.length_range]; omega)]; rfl

/-- The recording tableau before the record is substituted. -/
def signed (m : Bool) (q : Tab) : Tab := if m then q else negate q

theorem SDone.signed_std {m : Bool} (hd : SDone w p q E H f β ε) (hrec : IsRecord w rec m) (hpos : ∀ x ∈ rec, 0 < x) :
    ∃ ε', SStd (signed m q) β ε' w.length ∧ SCompat β ε' (fun k => rec.getD k 0) w.length := by
  cases m with
  | true => exact ⟨ε, hd.std, scompat_true hrec hpos hd⟩
  | false => exact ⟨flip β ε, hd.std.negate, scompat_false hrec hpos hd⟩

theorem SDone.signed_signed (hd : SDone w p q E H f β ε) (m : Bool) : signed m (signed m q) = q := by
  cases m with
  | true => rfl
  | false => exact negate_negate hd.std

theorem SDone.has_eq (hd : SDone w p q E H f β ε) (b : Nat × Nat) : p.has b = true ↔ q.has b = true := by
  obtain ⟨i, j⟩ := b
  rw [hd.qinv.shape, hd.inc.has_iff]

theorem has_signed (m : Bool) (q : Tab) (b : Nat × Nat) : (signed m q).has b = q.has b := by
  cases m with
  | true => rfl
  | false => exact has_negate q b

theorem symplectic_run {m : Bool} (hd : SDone w p q E H f β ε) (hrec : IsRecord w rec m) (hpos : ∀ x ∈ rec, 0 < x) :
    symplecticHecke w (some rec) m = some (p, (signed m q).apply (recMap rec)) := by
  obtain ⟨ε', h1, h2⟩ := hd.signed_std hrec hpos
  rw [symplecticHecke, (Insertion.checkRecord_eq w rec m).1 hrec]
  simp only
  rw [hd.run]
  simp only
  rw [← signed, sapply?_eq h1 hrec.1.symm]
  rfl

theorem symplectic_back {m : Bool} (hd : SDone w p q E H f β ε) (hrec : IsRecord w rec m) (hpos : ∀ x ∈ rec, 0 < x) :
    inverseSymplecticHecke p ((signed m q).apply (recMap rec)) m = some (w, rec) := by
  obtain ⟨ε', h1, h2⟩ := hd.signed_std hrec hpos
  have hG := maps_recMap (ε := ε') (N := w.length) rec
  have h0 : Tab.empty.items = [] := rfl
  rw [inverseSymplecticHecke, if_pos (keys_eq (fun b => by rw [has_apply, has_signed]; exact hd.has_eq b))]
  simp only
  rw [standardize_sapply h1 hG h2, recordList_sapply h1 hG h2]
  simp only
  rw [← signed, hd.signed_signed]
  have hl : ((signed m q).apply (recMap rec)).len = w.length := by
    rw [values_length_apply]; exact h1.len
  rw [hl, Nat.add_comm, hd.back, inverseInsertion, if_pos h0, List.append_nil, hrec.1, map_range_rec]
  rfl

end Verif.FInsertion
