import Verif.Lemmas.Rpp
import Verif.Lemmas.TabCount

/-! Reverse plane partitions as fillings, and their weights. -/

attribute [-simp] List.getD_eq_getElem?_getD

namespace Verif.Tableaux

open Tab Verif.Part Partition Symm

theorem isTab_semistandardRpp {lam : List Nat} (hl : IsPartition lam) (n : Nat) {mu : List Nat} (hm : IsPartition mu)
    {T : Tab} : T ∈ semistandardRpp lam n mu ↔ IsTab rppRules lam n mu T := by
  rw [mem_semistandardRpp hl n hm, mem_genTabs rppRules_inj hl (rppMoves_lists hl) n hm]

/-- `weight` counts the columns. -/
theorem rppWeight_eq {lam : List Nat} {n : Nat} {mu : List Nat} {T : Tab} (h : IsTab rppRules lam n mu T) :
    rppWeight n T = wtL n (tabWeight rppRules colOm) T := by
  have hlen : (rppWeight n T).length = n := by
    unfold rppWeight
    rw [List.length_map, foldl_foldl_flatMap T.items (fun (ans : List (Finset Nat)) b (x : Int) =>
      ans.set (x.natAbs - 1) (insert b.2 (ans.getD (x.natAbs - 1) ∅)))]
    rw [(mem_foldl_insert (α := (Nat × Nat) × Int) _ (fun q => q.2.natAbs - 1) (fun q => q.1.2) _).1, List.length_replicate]
  apply List.ext_getElem (by rw [hlen, length_wtL])
  intro i h1 h2
  rw [← List.getD_eq_getElem (wtL n (tabWeight rppRules colOm) T) 0 h2, getD_wtL _ _ _ (by omega)]
  simp only [rppWeight, List.getElem_map]
  rw [tabWeight, colOm]
  congr 1
  simp only [foldl_foldl_flatMap T.items (fun (ans : List (Finset Nat)) b (x : Int) =>
      ans.set (x.natAbs - 1) (insert b.2 (ans.getD (x.natAbs - 1) ∅)))]
  have hspec := mem_foldl_insert (α := (Nat × Nat) × Int) (T.items.flatMap (fun p => p.2.map (fun x => (p.1, x))))
    (fun q => q.2.natAbs - 1) (fun q => q.1.2) (List.replicate n ∅)
  rw [← List.getD_eq_getElem _ ∅]
  ext c
  rw [hspec.2 i (by rw [List.length_replicate]; omega) c, Finset.mem_image]
  have he : c ∉ (List.replicate n (∅ : Finset Nat)).getD i ∅ := by
    rw [List.getD_eq_getElem _ _ (by rw [List.length_replicate]; omega)]
    simp
  constructor
  · rintro (h3 | ⟨⟨b, x⟩, h3, h4, h5⟩)
    · exact absurd h3 he
    · rw [mem_boxPairs] at h3
      obtain ⟨k, k1, k2, rfl⟩ := h.range b x h3
      refine ⟨b, mem_boxesWith.2 ?_, h5⟩
      have : i + 1 = k := by
        have h4 : (rppRules.val k).natAbs - 1 = i := h4
        have : (rppRules.val k).natAbs = k := Int.natAbs_natCast k
        omega
      rw [this]; exact h3
  · rintro ⟨b, h3, h5⟩
    rw [mem_boxesWith] at h3
    exact Or.inr ⟨(b, rppRules.val (i + 1)), (mem_boxPairs _ _).2 h3, by simp [rppRules]; omega, h5⟩

theorem colOm_le (k : Nat) (S : Finset (Nat × Nat)) : colOm k S ≤ S.card := Finset.card_image_le

/-- The weight has at most as many entries as there are boxes. -/
theorem sum_rppWeight_le {lam : List Nat} {n : Nat} {mu : List Nat} {T : Tab} (h : IsTab rppRules lam n mu T) :
    ∑ i ∈ Finset.range n, tabWeight rppRules colOm T i + lam.sum ≤ mu.sum := by
  have h1 := isTab_length h
  have h2 := sum_boxesWith rfl rppRules_inj h
  have h3 : ∑ i ∈ Finset.range n, tabWeight rppRules colOm T i ≤
      ∑ i ∈ Finset.range n, (boxesWith T (rppRules.val (i + 1))).card :=
    Finset.sum_le_sum (fun i _ => colOm_le _ _)
  omega

/-- No letter occurs in more columns than the first row is long. -/
theorem rppWeight_le_first {n : Nat} {mu : List Nat} (hm : IsPartition mu) {T : Tab} (h : IsTab rppRules [] n mu T)
    (i : Nat) : tabWeight rppRules colOm T i ≤ mu.getD 0 0 := by
  rw [tabWeight, colOm]
  have : (boxesWith T (rppRules.val (i + 1))).image Prod.snd ⊆ Finset.Ioc 0 (mu.getD 0 0) := by
    intro c hc
    obtain ⟨⟨r, c'⟩, hb, rfl⟩ := Finset.mem_image.1 hc
    have h1 := ((h.dom _).1 (List.ne_nil_of_mem (mem_boxesWith.1 hb))).1
    have h1 : (r, c') ∈ Diagram mu := h1
    rw [mem_diagram] at h1
    have h2 := getD_antitone hm.1 (Nat.zero_le (r - 1))
    rw [Finset.mem_Ioc]
    simp only at h2 ⊢
    omega
  simpa using Finset.card_le_card this

end Verif.Tableaux
