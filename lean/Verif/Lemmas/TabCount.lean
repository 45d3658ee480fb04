import Verif.Lemmas.LayerGen
import Verif.Lemmas.Semistandard
import Verif.Model.Rpp
import Mathlib.Data.Finset.Sigma
import Mathlib.Algebra.Order.BigOperators.Group.Finset
import Mathlib.Algebra.BigOperators.Intervals

/-! Fillings with one entry in each box, and their weights. -/

attribute [-simp] List.getD_eq_getElem?_getD

namespace Verif.Tableaux

open Tab Verif.Part Partition

variable {R : Rules} {lam : List Nat}

/-- A tableau with one entry in each box, as a function on the boxes. -/
theorem isTab_iff_filling (hsv : R.sv = false) {K : Nat} {mu : List Nat} {T : Tab} :
    IsTab R lam K mu T ↔ shapeSet R.sh lam ⊆ shapeSet R.sh mu ∧ ∃ f : Nat × Nat → Int,
      ((∀ b ∈ shapeSet R.sh mu \ shapeSet R.sh lam, ∃ k, 1 ≤ k ∧ k ≤ K ∧ f b = R.val k) ∧
       (∀ i j k l, (i, j) ∈ shapeSet R.sh mu \ shapeSet R.sh lam → (i, j + 1) ∈ shapeSet R.sh mu \ shapeSet R.sh lam →
         R.val k = f (i, j) → R.val l = f (i, j + 1) → k ≤ l ∧ (k = l → R.rowRep k)) ∧
       (∀ i j k l, (i, j) ∈ shapeSet R.sh mu \ shapeSet R.sh lam → (i + 1, j) ∈ shapeSet R.sh mu \ shapeSet R.sh lam →
         R.val k = f (i, j) → R.val l = f (i + 1, j) → k ≤ l ∧ (k = l → R.colRep k)) ∧
       (∀ i k, (i, i) ∈ shapeSet R.sh mu \ shapeSet R.sh lam → R.val k = f (i, i) → R.diag k)) ∧
      (∀ b ∈ shapeSet R.sh mu \ shapeSet R.sh lam, T.get? b = some [f b]) ∧
      ∀ b ∉ shapeSet R.sh mu \ shapeSet R.sh lam, T.get? b = none := by
  obtain ⟨D, hD⟩ : ∃ D, shapeSet R.sh mu \ shapeSet R.sh lam = D := ⟨_, rfl⟩
  have hmemD : ∀ b, b ∈ D ↔ b ∈ shapeSet R.sh mu ∧ b ∉ shapeSet R.sh lam := fun b => by rw [← hD]; exact Iff.rfl
  rw [hD]
  constructor
  · intro h
    refine ⟨h.sub, ?_⟩
    have hone : ∀ b ∈ D, ∃ x, T.ent b = [x] := by
      intro b hb
      have h1 := (h.dom b).2 ((hmemD b).1 hb)
      have h2 := h.single hsv b
      have h3 := h.canon.sorted b
      match hl : T.ent b with
      | [] => exact absurd hl h1
      | [x] => exact ⟨x, rfl⟩
      | x :: y :: t =>
        rw [hl] at h2 h3
        have := h2 x (by simp) y (by simp)
        have h4 := (List.pairwise_cons.1 h3).1 y (by simp)
        omega
    have hf : ∀ b ∈ D, T.ent b = [(T.ent b).headD 0] := by
      intro b hb
      obtain ⟨x, hx⟩ := hone b hb
      rw [hx]; rfl
    have hmem : ∀ b ∈ D, (T.ent b).headD 0 ∈ T.ent b := by
      intro b hb
      obtain ⟨x, hx⟩ := hone b hb
      rw [hx]; simp
    refine ⟨fun b => (T.ent b).headD 0, ⟨?_, ?_, ?_, ?_⟩, ?_, ?_⟩
    · intro b hb
      obtain ⟨k, h1, h2, h3⟩ := h.range b _ (hmem b hb)
      exact ⟨k, h1, h2, h3⟩
    · intro i j k l h1 h2 h3 h4
      exact h.row i j k l (h3 ▸ hmem _ h1) (h4 ▸ hmem _ h2)
    · intro i j k l h1 h2 h3 h4
      exact h.col i j k l (h3 ▸ hmem _ h1) (h4 ▸ hmem _ h2)
    · intro i k h1 h2
      exact h.diag i k (h2 ▸ hmem _ h1)
    · intro b hb
      rw [get?_eq_of_ent h.canon.ne]
      obtain ⟨x, hx⟩ := hone b hb
      simp only [hx, List.headD_cons]
      simp
    · intro b hb
      rw [get?_eq_of_ent h.canon.ne, if_pos]
      by_contra hc
      exact hb ((hmemD b).2 ((h.dom b).1 hc))
  · rintro ⟨hsub, f, ⟨hf1, hf2, hf3, hf4⟩, h1, h2⟩
    have e1 : ∀ b ∈ D, T.ent b = [f b] := fun b hb => by rw [ent, h1 b hb]; rfl
    have e2 : ∀ b ∉ D, T.ent b = [] := fun b hb => by rw [ent, h2 b hb]; rfl
    have hmem : ∀ b x, x ∈ T.ent b ↔ b ∈ D ∧ x = f b := by
      intro b x
      by_cases hb : b ∈ D
      · rw [e1 b hb]; simp [hb]
      · rw [e2 b hb]; simp [hb]
    refine ⟨⟨?_, ?_⟩, hsub, ?_, ?_, ?_, ?_, ?_, ?_⟩
    · intro b
      by_cases hb : b ∈ D
      · rw [h1 b hb]; simp
      · rw [h2 b hb]; simp
    · intro b
      by_cases hb : b ∈ D
      · rw [e1 b hb]; simp
      · rw [e2 b hb]; simp
    · intro b
      rw [← hmemD]
      by_cases hb : b ∈ D
      · rw [e1 b hb]; exact ⟨fun _ => hb, fun _ => by simp⟩
      · rw [e2 b hb]; exact ⟨fun h => absurd rfl h, fun h => absurd h hb⟩
    · intro b x hx
      obtain ⟨hb, rfl⟩ := (hmem b x).1 hx
      exact hf1 b hb
    · intro _ b x hx y hy
      rw [((hmem b x).1 hx).2, ((hmem b y).1 hy).2]
    · intro i j k l hk hl
      obtain ⟨a1, a2⟩ := (hmem _ _).1 hk
      obtain ⟨b1, b2⟩ := (hmem _ _).1 hl
      exact hf2 i j k l a1 b1 a2 b2
    · intro i j k l hk hl
      obtain ⟨a1, a2⟩ := (hmem _ _).1 hk
      obtain ⟨b1, b2⟩ := (hmem _ _).1 hl
      exact hf3 i j k l a1 b1 a2 b2
    · intro i k hk
      obtain ⟨a1, a2⟩ := (hmem _ _).1 hk
      exact hf4 i k a1 a2

theorem mem_boxes_iff {T : Tab} (h : T.Canon) (b : Nat × Nat) : b ∈ T.items.map Prod.fst ↔ T.ent b ≠ [] := by
  rw [List.mem_map]
  constructor
  · rintro ⟨p, hp, hpe⟩ h0
    have h2 : T.get? b = some p.2 := Tab.get?_eq_some.2 (by rw [← hpe]; exact hp)
    rw [Tab.ent, h2, Option.getD_some] at h0
    rw [h0] at h2
    exact h.ne _ h2
  · intro h0
    cases hg : T.get? b with
    | none => rw [Tab.ent, hg] at h0; exact absurd rfl h0
    | some s => exact ⟨(b, s), Tab.get?_eq_some.1 hg, rfl⟩

theorem sum_getD_range (l : List Nat) {M : Nat} (h : l.length ≤ M) : ∑ i ∈ Finset.range M, l.getD i 0 = l.sum := by
  induction l generalizing M with
  | nil =>
    refine Finset.sum_eq_zero (fun i _ => rfl)
  | cons a t ih =>
    obtain ⟨M, rfl⟩ : ∃ m, M = m + 1 := ⟨M - 1, by simp at h; omega⟩
    rw [Finset.sum_range_succ', List.sum_cons]
    simp only [List.getD_cons_succ, List.getD_cons_zero]
    rw [ih (by simpa using h), add_comm]

/-- The number of boxes. -/
theorem isTab_length {K : Nat} {mu : List Nat} {T : Tab} (h : IsTab R lam K mu T) : T.items.length + lam.sum = mu.sum := by
  classical
  obtain ⟨M, hM⟩ : ∃ M, M = max mu.length lam.length := ⟨_, rfl⟩
  have hle := shapeSet_subset.1 h.sub
  have h1 : (T.items.map Prod.fst).toFinset =
      ((Finset.range M).sigma (fun i => Finset.Ioc (lam.getD i 0) (mu.getD i 0))).image
        (fun p => (p.1 + 1, off R.sh (p.1 + 1) + p.2)) := by
    ext ⟨i, j⟩
    rw [List.mem_toFinset, mem_boxes_iff h.canon, h.dom, mem_shapeSet, mem_shapeSet, Finset.mem_image]
    simp only [Finset.mem_sigma, Finset.mem_range, Finset.mem_Ioc, Prod.mk.injEq]
    constructor
    · rintro ⟨⟨h2, h3, h4⟩, h5⟩
      refine ⟨⟨i - 1, j - off R.sh i⟩, ⟨?_, ?_, ?_⟩, by simp only; omega, ?_⟩
      · by_contra hlt
        simp only at hlt
        rw [List.getD_eq_default mu 0 (by omega)] at h4
        omega
      · by_contra hlt
        exact h5 ⟨h2, h3, by simp only at hlt; omega⟩
      · simp only; omega
      · simp only
        rw [Nat.sub_add_cancel h2]
        omega
    · rintro ⟨⟨a, b⟩, ⟨h2, h3, h4⟩, rfl, rfl⟩
      simp only at h2 h3 h4
      simp only [Nat.add_sub_cancel]
      omega
  have h2 : (T.items.map Prod.fst).toFinset.card = T.items.length := by
    rw [List.toFinset_card_of_nodup T.keys_nodup, List.length_map]
  rw [← h2, h1, Finset.card_image_of_injective, Finset.card_sigma]
  · simp only [Nat.card_Ioc]
    have h3 : ∑ i ∈ Finset.range M, (mu.getD i 0 - lam.getD i 0) + ∑ i ∈ Finset.range M, lam.getD i 0 =
        ∑ i ∈ Finset.range M, mu.getD i 0 := by
      rw [← Finset.sum_add_distrib]
      exact Finset.sum_congr rfl (fun i _ => by have := hle i; omega)
    rw [sum_getD_range lam (by omega), sum_getD_range mu (by omega)] at h3
    exact h3
  · rintro ⟨a, b⟩ ⟨c, d⟩ he
    simp only [Prod.mk.injEq] at he
    obtain ⟨h1, h2⟩ := he
    obtain rfl : a = c := by omega
    obtain rfl : b = d := by omega
    rfl

/-- Every box holds one letter. -/
theorem sum_boxesWith (hsv : R.sv = false) (hinj : Function.Injective R.val) {K : Nat} {mu : List Nat} {T : Tab}
    (h : IsTab R lam K mu T) : ∑ i ∈ Finset.range K, (boxesWith T (R.val (i + 1))).card = T.items.length := by
  classical
  rw [← Finset.card_biUnion]
  · have h2 : (T.items.map Prod.fst).toFinset.card = T.items.length := by
      rw [List.toFinset_card_of_nodup T.keys_nodup, List.length_map]
    rw [← h2]
    congr 1
    ext b
    rw [Finset.mem_biUnion, List.mem_toFinset, mem_boxes_iff h.canon]
    constructor
    · rintro ⟨i, _, hi⟩
      exact List.ne_nil_of_mem (mem_boxesWith.1 hi)
    · intro h0
      obtain ⟨x, hx⟩ := List.exists_mem_of_ne_nil _ h0
      obtain ⟨k, h1, h2, rfl⟩ := h.range b x hx
      refine ⟨k - 1, Finset.mem_range.2 (by omega), mem_boxesWith.2 ?_⟩
      rwa [Nat.sub_add_cancel h1]
  · intro i _ j _ hij
    rw [Function.onFun, Finset.disjoint_left]
    intro b h1 h2
    have := hinj (h.single hsv b _ (mem_boxesWith.1 h1) _ (mem_boxesWith.1 h2))
    exact hij (by omega)

theorem count_entries {T : Tab} (h : T.Canon) (x : Int) : T.entries.count x = (boxesWith T x).card := by
  have hb : (boxesWith T x).card = (T.items.filter (fun p => decide (x ∈ p.2))).length := by
    rw [boxesWith, List.toFinset_card_of_nodup, List.length_map]
    exact (List.Sublist.map Prod.fst List.filter_sublist).nodup T.keys_nodup
  rw [hb, entries, List.count_flatMap]
  have hs : ∀ p ∈ T.items, p.2.Pairwise (· < ·) := by
    rintro ⟨b, s⟩ hp
    have h1 := h.sorted b
    rw [ent, get?_eq_some.2 hp] at h1
    exact h1
  have : ∀ l : List ((Nat × Nat) × List Int), (∀ p ∈ l, p.2.Pairwise (· < ·)) →
      (l.map (List.count x ∘ Prod.snd)).sum = (l.filter (fun p => decide (x ∈ p.2))).length := by
    intro l hl
    induction l with
    | nil => rfl
    | cons p l ih =>
      rw [List.map_cons, List.sum_cons, ih (fun q hq => hl q (by simp [hq])), List.filter_cons, Function.comp_apply]
      have hnd : p.2.Nodup := (hl p (by simp)).imp (fun h => by omega)
      by_cases hx : x ∈ p.2
      · rw [List.count_eq_one_of_mem hnd hx, if_pos (by simpa using hx), List.length_cons, add_comm]
      · rw [List.count_eq_zero_of_not_mem hx, if_neg (by simpa using hx), zero_add]
  exact this _ hs

/-- A list of sets to which elements are added. -/
theorem mem_foldl_insert {α : Type} (l : List α) (idx : α → Nat) (el : α → Nat) (ans : List (Finset Nat)) :
    (l.foldl (fun (ans : List (Finset Nat)) a => ans.set (idx a) (insert (el a) (ans.getD (idx a) ∅))) ans).length =
      ans.length ∧
    ∀ i < ans.length, ∀ c,
      (c ∈ (l.foldl (fun (ans : List (Finset Nat)) a => ans.set (idx a) (insert (el a) (ans.getD (idx a) ∅))) ans).getD i ∅ ↔
        c ∈ ans.getD i ∅ ∨ ∃ a ∈ l, idx a = i ∧ el a = c) := by
  induction l generalizing ans with
  | nil => simp
  | cons a l ih =>
    obtain ⟨h1, h2⟩ := ih (ans.set (idx a) (insert (el a) (ans.getD (idx a) ∅)))
    rw [List.length_set] at h1 h2
    refine ⟨h1, fun i hi c => ?_⟩
    rw [List.foldl_cons, h2 i hi c]
    have h3 : (ans.set (idx a) (insert (el a) (ans.getD (idx a) ∅))).getD i ∅ =
        if idx a = i then insert (el a) (ans.getD i ∅) else ans.getD i ∅ := by
      rw [List.getD_eq_getElem _ _ (by rw [List.length_set]; exact hi), List.getElem_set]
      split
      · rename_i h; rw [h]
      · rw [List.getD_eq_getElem _ _ hi]
    rw [h3]
    by_cases h4 : idx a = i
    · rw [if_pos h4, Finset.mem_insert]
      simp only [List.mem_cons, exists_eq_or_imp, h4, true_and]
      tauto
    · rw [if_neg h4]
      simp only [List.mem_cons, exists_eq_or_imp, h4, false_and, false_or]

theorem foldl_foldl_flatMap {α β γ : Type} (l : List (α × List β)) (F : γ → α → β → γ) (ans : γ) :
    l.foldl (fun ans p => p.2.foldl (fun ans x => F ans p.1 x) ans) ans =
      (l.flatMap (fun p => p.2.map (fun x => (p.1, x)))).foldl (fun ans q => F ans q.1 q.2) ans := by
  induction l generalizing ans with
  | nil => rfl
  | cons a l ih => rw [List.foldl_cons, ih, List.flatMap_cons, List.foldl_append, List.foldl_map]

theorem mem_boxPairs {T : Tab} (b : Nat × Nat) (x : Int) :
    (b, x) ∈ T.items.flatMap (fun p => p.2.map (fun x => (p.1, x))) ↔ x ∈ T.ent b := by
  rw [List.mem_flatMap]
  constructor
  · rintro ⟨⟨c, s⟩, hp, h⟩
    rw [List.mem_map] at h
    obtain ⟨y, hy, he⟩ := h
    obtain ⟨rfl, rfl⟩ := Prod.mk_inj.1 he
    rw [ent, get?_eq_some.2 hp]
    exact hy
  · intro h
    unfold ent at h
    cases hg : T.get? b with
    | none => simp [hg] at h
    | some s => exact ⟨(b, s), get?_eq_some.1 hg, by simpa [hg] using h⟩

end Verif.Tableaux
