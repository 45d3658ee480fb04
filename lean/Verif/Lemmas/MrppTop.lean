import Verif.Lemmas.MarkedRppCount
import Verif.Lemmas.MarkedTriang

/-! Marked reverse plane partitions of the highest possible weight are shifted marked tableaux. -/

attribute [-simp] List.getD_eq_getElem?_getD

namespace Verif.Tableaux

open Tab Verif.Part Partition Symm

variable {dn : Bool} {lam mu : List Nat} {n : Nat} {T : Tab}

theorem sum_range_pairs (f : Nat → Nat) (n : Nat) :
    ∑ i ∈ Finset.range (2 * n), f i = ∑ i ∈ Finset.range n, (f (2 * i + 1) + f (2 * i)) := by
  induction n with
  | zero => rfl
  | succ n ih =>
    rw [show 2 * (n + 1) = 2 * n + 1 + 1 by ring, Finset.sum_range_succ, Finset.sum_range_succ, ih, Finset.sum_range_succ]
    ring

theorem mrpp_sum_markWeight (h : IsTab (mrppRules dn) lam (2 * n) mu T) :
    ∑ i ∈ Finset.range n, markWeight T i = T.items.length := by
  rw [← sum_boxesWith rfl (mrppRules_inj dn) h, sum_range_pairs]
  refine Finset.sum_congr rfl (fun i _ => ?_)
  rw [markWeight, mrppRules_odd, show 2 * i + 1 + 1 = 2 * i + 2 by ring, mrppRules_even]

theorem mrppWt_le (T : Tab) (i : Nat) : mrppWt T i ≤ markWeight T i :=
  Nat.add_le_add Finset.card_image_le Finset.card_image_le

/-- The weight has at most as many entries as there are boxes. -/
theorem sum_mrppWt_le (h : IsTab (mrppRules dn) lam (2 * n) mu T) :
    ∑ i ∈ Finset.range n, mrppWt T i + lam.sum ≤ mu.sum := by
  have h1 := isTab_length h
  have h2 := mrpp_sum_markWeight h
  have h3 : ∑ i ∈ Finset.range n, mrppWt T i ≤ ∑ i ∈ Finset.range n, markWeight T i :=
    Finset.sum_le_sum (fun i _ => mrppWt_le T i)
  omega

theorem mrpp_top (h : IsTab (mrppRules dn) lam (2 * n) mu T)
    (hs : ∑ i ∈ Finset.range n, mrppWt T i + lam.sum = mu.sum) :
    IsTab (markRules true false true) lam (2 * n) mu T ∧ ∀ i < n, mrppWt T i = markWeight T i := by
  have h1 := isTab_length h
  have h2 := mrpp_sum_markWeight h
  have heq : ∀ i ∈ Finset.range n, mrppWt T i = markWeight T i :=
    (Finset.sum_eq_sum_iff_of_le (fun i _ => mrppWt_le T i)).1 (by omega)
  have hcards : ∀ i < n, ((boxesWith T ((i : Int) + 1)).image Prod.snd).card = (boxesWith T ((i : Int) + 1)).card ∧
      ((boxesWith T (-((i : Int) + 1))).image Prod.fst).card = (boxesWith T (-((i : Int) + 1))).card := by
    intro i hi
    have := heq i (Finset.mem_range.2 hi)
    rw [mrppWt, markWeight] at this
    have a := Finset.card_image_le (s := boxesWith T ((i : Int) + 1)) (f := Prod.snd)
    have b := Finset.card_image_le (s := boxesWith T (-((i : Int) + 1))) (f := Prod.fst)
    omega
  have hletter : ∀ b k, (mrppRules dn).val k ∈ T.ent b → 1 ≤ k ∧ k ≤ 2 * n := by
    intro b k hk
    obtain ⟨l, l1, l2, l3⟩ := h.range b _ hk
    rw [mrppRules_inj dn l3]
    exact ⟨l1, l2⟩
  refine ⟨⟨h.canon, h.sub, h.dom, h.range, h.single, fun i j k l hk hl => ⟨(h.row i j k l hk hl).1, ?_⟩,
    fun i j k l hk hl => ⟨(h.col i j k l hk hl).1, ?_⟩, fun i k hk => Or.inl rfl⟩, fun i hi => heq i (Finset.mem_range.2 hi)⟩
  · rintro rfl
    show k % 2 = 0
    by_contra hc
    obtain ⟨a1, a2⟩ := hletter _ _ hk
    obtain ⟨a, rfl⟩ : ∃ a, k = 2 * a + 1 := ⟨k / 2, by omega⟩
    have hinj := Finset.card_image_iff.1 (hcards a (by omega)).2
    have e := mrppRules_odd dn a
    have hk' : -((a : Int) + 1) ∈ T.ent (i, j) := e ▸ hk
    have hl' : -((a : Int) + 1) ∈ T.ent (i, j + 1) := e ▸ hl
    have := hinj (mem_boxesWith.2 hk') (mem_boxesWith.2 hl') rfl
    rw [Prod.mk.injEq] at this
    omega
  · rintro rfl
    show k % 2 = 1
    by_contra hc
    obtain ⟨a1, a2⟩ := hletter _ _ hk
    obtain ⟨a, rfl⟩ : ∃ a, k = 2 * a + 2 := ⟨k / 2 - 1, by omega⟩
    have hinj := Finset.card_image_iff.1 (hcards a (by omega)).1
    have e := mrppRules_even dn a
    have hk' : ((a : Int) + 1) ∈ T.ent (i, j) := e ▸ hk
    have hl' : ((a : Int) + 1) ∈ T.ent (i + 1, j) := e ▸ hl
    have := hinj (mem_boxesWith.2 hk') (mem_boxesWith.2 hl') rfl
    rw [Prod.mk.injEq] at this
    omega

theorem mem_diag (hm : IsStrict mu) {i : Nat} : (i, i) ∈ shapeSet true mu ↔ i ∈ Finset.Icc 1 mu.length := by
  rw [mem_shapeSet, Finset.mem_Icc]
  have := getD_pos_iff hm (i - 1)
  simp only [off, if_true]
  omega

/-- Marked reverse plane partitions whose weight is their shape. -/
theorem mrpp_top_iff (hm : IsStrict mu) (hl : mu.length ≤ n) :
    (IsTab (mrppRules dn) [] (2 * n) mu T ∧ ∀ i < n, mrppWt T i = mu.getD i 0) ↔
      T.Canon ∧ ∃ s ⊆ Finset.Icc 1 mu.length, (dn = false → s = Finset.Icc 1 mu.length) ∧
        ∀ b x, x ∈ T.ent b ↔ b ∈ shapeSet true mu ∧ x = topEntry s b := by
  constructor
  · rintro ⟨h, hw⟩
    have hsum : ∑ i ∈ Finset.range n, mrppWt T i + ([] : List Nat).sum = mu.sum := by
      rw [Finset.sum_congr rfl (fun i hi => hw i (Finset.mem_range.1 hi)), sum_range_length hl]
      rfl
    obtain ⟨h1, h2⟩ := mrpp_top h hsum
    obtain ⟨hc, s, hs, _, he⟩ := (isTab_top_iff hm hl).1 ⟨h1, fun i hi => by rw [← h2 i hi, hw i hi]⟩
    refine ⟨hc, s, hs, fun hd => ?_, he⟩
    refine Finset.Subset.antisymm hs (fun i hi => ?_)
    have hx := (he (i, i) _).2 ⟨(mem_diag hm).2 hi, rfl⟩
    by_contra hns
    rw [topEntry, if_neg (fun h => hns h.2)] at hx
    rw [Finset.mem_Icc] at hi
    have e : ((i : Nat) : Int) = (mrppRules dn).val (2 * (i - 1) + 2) := by rw [mrppRules_even]; omega
    simp only at hx
    rw [e] at hx
    rcases h.diag i _ hx with h | h
    · rw [hd] at h; cases h
    · omega
  · rintro ⟨hc, s, hs, hd, he⟩
    obtain ⟨h, hw⟩ := (isTab_top_iff (sv := false) (dp := true) hm hl).2 ⟨hc, s, hs, by simp, he⟩
    have hI : IsTab (mrppRules dn) [] (2 * n) mu T := by
      refine ⟨h.canon, h.sub, h.dom, h.range, h.single, fun i j k l hk hl => ⟨(h.row i j k l hk hl).1, fun _ => trivial⟩,
        fun i j k l hk hl => ⟨(h.col i j k l hk hl).1, fun _ => trivial⟩, fun i k hk => ?_⟩
      show dn = true ∨ k % 2 = 1
      cases dn with
      | true => exact Or.inl rfl
      | false =>
        right
        obtain ⟨h1, h2⟩ := (he _ _).1 hk
        have hi := (mem_diag hm).1 h1
        rw [topEntry, if_pos ⟨rfl, by rw [hd rfl]; exact hi⟩] at h2
        rw [Finset.mem_Icc] at hi
        simp only [mrppRules, markRules] at h2
        split at h2 <;> omega
    refine ⟨hI, fun i hi => ?_⟩
    rw [← hw i hi, mrppWt, markWeight, Finset.card_image_iff.2, Finset.card_image_iff.2]
    · rintro ⟨a, b⟩ hb ⟨a', b'⟩ hb' hab
      have hab : a = a' := hab
      subst hab
      rw [Finset.mem_coe, mem_boxesWith, he] at hb hb'
      have e1 := hb.2
      have e2 := hb'.2
      rw [topEntry] at e1 e2
      by_cases c1 : a = b ∧ a ∈ s
      · by_cases c2 : a = b' ∧ a ∈ s
        · rw [← c1.1, ← c2.1]
        · rw [if_neg c2] at e2
          simp only at e2
          omega
      · rw [if_neg c1] at e1
        simp only at e1
        omega
    · rintro ⟨a, b⟩ hb ⟨a', b'⟩ hb' hab
      have hab : b = b' := hab
      subst hab
      rw [Finset.mem_coe, mem_boxesWith, he] at hb hb'
      have e1 := hb.2
      have e2 := hb'.2
      rw [topEntry] at e1 e2
      have e3 : (a : Int) = i + 1 := by
        split at e1
        · simp only at e1; omega
        · exact e1.symm
      have e4 : (a' : Int) = i + 1 := by
        split at e2
        · simp only at e2; omega
        · exact e2.symm
      have : a = a' := by omega
      rw [this]

theorem exists_topTab (hm : IsStrict mu) (s : Finset Nat) :
    ∃ T : Tab, T.Canon ∧ ∀ b x, x ∈ T.ent b ↔ b ∈ shapeSet true mu ∧ x = topEntry s b := by
  obtain ⟨T, h1, h2⟩ := exists_tab ((rowBoxes mu mu.length).toList.map (fun b => (b, topEntry s b)))
  refine ⟨T, h1, ?_⟩
  rintro ⟨i, j⟩ x
  rw [h2, List.mem_map]
  simp only [Finset.mem_toList, Prod.mk.injEq]
  constructor
  · rintro ⟨⟨a, b⟩, h3, ⟨rfl, rfl⟩, rfl⟩
    exact ⟨(mem_rowBoxes.1 h3).1, rfl⟩
  · rintro ⟨h3, rfl⟩
    refine ⟨(i, j), mem_rowBoxes.2 ⟨h3, ?_⟩, rfl, rfl⟩
    rw [mem_shapeSet] at h3
    have := (getD_pos_iff hm (i - 1)).1 (by omega)
    omega

/-- The number of marked reverse plane partitions whose weight is their shape. -/
theorem card_mrpp_top (hm : IsStrict mu) (hl : mu.length ≤ n) :
    ((mrppGen dn [] n mu).filter (fun T => ∀ i < n, mrppWt T i = mu.getD i 0)).card =
      if dn then 2 ^ mu.length else 1 := by
  have hnil : IsStrict [] := ⟨by simp, by simp⟩
  cases dn with
  | true =>
    have h := card_top (sv := false) (dp := true) (n := n) hm hl
    rw [← h]
    congr 1
    ext T
    rw [Finset.mem_filter, Finset.mem_filter, isTab_mrppGen hnil n hm,
      isTab_markedGen (sh := true) (by simp) hnil n hm,
      mrpp_top_iff hm hl, isTab_top_iff hm hl]
    simp
  | false =>
    obtain ⟨T0, h1, h2⟩ := exists_topTab hm (Finset.Icc 1 mu.length)
    simp only [Bool.false_eq_true, if_false]
    rw [Finset.card_eq_one]
    refine ⟨T0, ?_⟩
    ext T
    rw [Finset.mem_filter, isTab_mrppGen hnil n hm, mrpp_top_iff hm hl, Finset.mem_singleton]
    constructor
    · rintro ⟨hc, s, hs, hd, he⟩
      rw [hd rfl] at he
      refine ext_ent hc.ne h1.ne (fun b => ?_)
      refine eq_of_pairwise_lt (hc.sorted b) (h1.sorted b) (fun x => ?_)
      rw [h2, he]
    · rintro rfl
      exact ⟨h1, _, subset_rfl, fun _ => rfl, h2⟩

end Verif.Tableaux
