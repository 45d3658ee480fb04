import Verif.Model.Rims
import Verif.Spec.Rims
import Verif.Lemmas.PartitionsMore
import Mathlib.Data.List.TakeWhile

/-! Lemmas on the rims of partitions.py:458-503. -/

attribute [-simp] List.getD_eq_getElem?_getD

namespace Verif.Partition

open Verif.Part

/-! ### `takeWhile` and `dropWhile` on lists where the predicate holds on a prefix -/

theorem takeWhile_eq_filter {α : Type*} (p : α → Bool) : ∀ {l : List α}, l.Pairwise (fun x y => p y = true → p x = true) →
    l.takeWhile p = l.filter p ∧ l.dropWhile p = l.filter (fun x => !p x)
  | [], _ => by simp
  | a :: l, h => by
    rw [List.pairwise_cons] at h
    obtain ⟨h1, h2⟩ := takeWhile_eq_filter p h.2
    cases hp : p a with
    | true =>
      rw [List.takeWhile_cons_of_pos hp, List.dropWhile_cons_of_pos hp, List.filter_cons_of_pos hp,
        List.filter_cons_of_neg (by simp [hp]), h1, h2]
      exact ⟨rfl, rfl⟩
    | false =>
      have hn : ∀ x ∈ l, p x = false := fun x hx => by
        have := h.1 x hx
        rw [hp] at this
        simpa using this
      rw [List.takeWhile_cons_of_neg (by simp [hp]), List.dropWhile_cons_of_neg (by simp [hp]),
        List.filter_cons_of_neg (by simp [hp]), List.filter_cons_of_pos (by simp [hp])]
      refine ⟨(List.filter_eq_nil_iff.2 (fun x hx => by simp [hn x hx])).symm, ?_⟩
      congr 1
      exact (List.filter_eq_self.2 (fun x hx => by simp [hn x hx])).symm

theorem sublist_filter {α : Type*} (p : α → Bool) {r l : List α} : r.Sublist (l.filter p) ↔ r.Sublist l ∧ ∀ x ∈ r, p x = true := by
  constructor
  · intro h
    exact ⟨h.trans List.filter_sublist, fun x hx => (List.mem_filter.1 (h.subset hx)).2⟩
  · rintro ⟨h1, h2⟩
    have := h1.filter p
    rwa [List.filter_eq_self.2 h2] at this

theorem sublist_eq_of_subset {α : Type*} [DecidableEq α] {r l : List α} (h : r.Sublist l) (hl : l.Nodup) (hs : l ⊆ r) : r = l := by
  refine h.eq_of_length_le ?_
  exact (List.subperm_of_subset hl hs).length_le

/-! ### The recursion -/

/-- A path from the lower left to the upper right. -/
def IsPath (l : List (Nat × Nat)) : Prop := l.Pairwise (fun c d => d.1 ≤ c.1 ∧ c.2 ≤ d.2 ∧ c ≠ d)

/-- With a box of `r` its left neighbours and its upper neighbours in `l` are in `r`. -/
def ClosedIn (l r : List (Nat × Nat)) : Prop := ∀ c ∈ l, ∀ d ∈ l,
  (c.1 = d.1 → c.2 < d.2 → d ∈ r → c ∈ r) ∧ (c.2 = d.2 → d.1 < c.1 → c ∈ r → d ∈ r)

theorem IsPath.nodup {l : List (Nat × Nat)} (h : IsPath l) : l.Nodup := h.imp (fun h => h.2.2)

theorem IsPath.sublist {l l' : List (Nat × Nat)} (h : IsPath l) (hs : l'.Sublist l) : IsPath l' := List.Pairwise.sublist hs h

theorem rimsHelperAux_spec (fuel : Nat) {l : List (Nat × Nat)} (hf : l.length < fuel) (hl : IsPath l) :
    (rimsHelperAux fuel l).Nodup ∧ ∀ r, r ∈ rimsHelperAux fuel l ↔ r.Sublist l ∧ ClosedIn l r := by
  induction fuel generalizing l with
  | zero => omega
  | succ fuel ih =>
    cases l with
    | nil =>
      rw [rimsHelperAux]
      refine ⟨by simp, fun r => ?_⟩
      simp [ClosedIn]
    | cons c l =>
      have hc := hl
      rw [IsPath, List.pairwise_cons] at hc
      obtain ⟨hc1, hc2⟩ := hc
      have hcl : c ∉ l := fun h => (hc1 c h).2.2 rfl
      have hnd : l.Nodup := IsPath.nodup hc2
      have hlen : l.length < fuel := by simpa using hf
      have hR := takeWhile_eq_filter (fun d : Nat × Nat => decide (d.1 = c.1)) (l := l) (by
        refine hc2.imp_of_mem ?_
        intro x y hx hy h hy1
        have := (hc1 x hx).1
        have h1 := h.1
        simp only [decide_eq_true_eq] at hy1 ⊢
        omega)
      have hC := takeWhile_eq_filter (fun d : Nat × Nat => decide (d.2 = c.2)) (l := l) (by
        refine hc2.imp_of_mem ?_
        intro x y hx hy h hy1
        have := (hc1 x hx).2.1
        have h1 := h.2.1
        simp only [decide_eq_true_eq] at hy1 ⊢
        omega)
      have hRs : (l.filter (fun x => !decide (x.1 = c.1))).Sublist l := List.filter_sublist
      have hCs : (l.filter (fun x => !decide (x.2 = c.2))).Sublist l := List.filter_sublist
      obtain ⟨i1, i2⟩ := ih (l := l.filter (fun x => !decide (x.1 = c.1))) (lt_of_le_of_lt hRs.length_le hlen) (hc2.sublist hRs)
      obtain ⟨j1, j2⟩ := ih (l := l.filter (fun x => !decide (x.2 = c.2))) (lt_of_le_of_lt hCs.length_le hlen) (hc2.sublist hCs)
      rw [rimsHelperAux, hR.2, hC.1, hC.2]
      constructor
      · rw [List.nodup_append]
        refine ⟨i1, j1.map (fun a b h => by simpa using h), ?_⟩
        rintro a ha b hb rfl
        rw [i2] at ha
        obtain ⟨bns, _, rfl⟩ := List.mem_map.1 hb
        exact hcl (hRs.subset (ha.1.subset (by simp)))
      · intro r
        rw [List.mem_append, i2, List.mem_map]
        constructor
        · rintro (⟨h1, h2⟩ | ⟨bns, hb, rfl⟩)
          · have hr : ∀ x ∈ r, x.1 ≠ c.1 := fun x hx => by
              have := (List.mem_filter.1 (h1.subset hx)).2
              simpa using this
            have hrl : ∀ x ∈ r, x ∈ l := fun x hx => hRs.subset (h1.subset hx)
            refine ⟨(h1.trans hRs).cons _, ?_⟩
            intro x hx y hy
            constructor
            · intro e1 e2 hyr
              have hy1 := hr y hyr
              have hx' : x ∈ l := by
                rcases List.mem_cons.1 hx with rfl | h
                · exact absurd e1.symm hy1
                · exact h
              exact (h2 x (List.mem_filter.2 ⟨hx', by simp; omega⟩) y (List.mem_filter.2 ⟨hrl y hyr, by simpa using hy1⟩)).1 e1 e2 hyr
            · intro e1 e2 hxr
              have hx1 := hr x hxr
              have hx2 := (hc1 x (hrl x hxr)).1
              have hy' : y ∈ l := by
                rcases List.mem_cons.1 hy with rfl | h
                · omega
                · exact h
              exact (h2 x (List.mem_filter.2 ⟨hrl x hxr, by simpa using hx1⟩) y (List.mem_filter.2 ⟨hy', by simp; omega⟩)).2 e1 e2 hxr
          · rw [j2] at hb
            obtain ⟨h1, h2⟩ := hb
            have hbn : ∀ x ∈ bns, x ∈ l ∧ x.2 ≠ c.2 := fun x hx => by
              have := List.mem_filter.1 (h1.subset hx)
              exact ⟨this.1, by simpa using this.2⟩
            refine ⟨?_, ?_⟩
            · rw [List.cons_append]
              refine List.Sublist.cons_cons _ ?_
              have e : l = l.filter (fun x => decide (x.2 = c.2)) ++ l.filter (fun x => !decide (x.2 = c.2)) := by
                rw [← hC.1, ← hC.2, List.takeWhile_append_dropWhile]
              conv_rhs => rw [e]
              exact (List.Sublist.refl _).append h1
            · have hmem : ∀ x, x ∈ (c :: l.filter (fun x => decide (x.2 = c.2))) ++ bns ↔ x = c ∨ (x ∈ l ∧ x.2 = c.2) ∨ x ∈ bns := by
                intro x
                simp [List.mem_filter]
              intro x hx y hy
              rw [hmem, hmem]
              have hx0 : x = c ∨ x ∈ l := List.mem_cons.1 hx
              have hy0 : y = c ∨ y ∈ l := List.mem_cons.1 hy
              constructor
              · rintro e1 e2 (rfl | h | h)
                · rcases hx0 with rfl | h0
                  · omega
                  · have := (hc1 x h0).2.1; omega
                · rcases hx0 with rfl | h0
                  · omega
                  · have := (hc1 x h0).2.1; omega
                · rcases hx0 with rfl | h0
                  · exact Or.inl rfl
                  · by_cases hxc : x.2 = c.2
                    · exact Or.inr (Or.inl ⟨h0, hxc⟩)
                    · exact Or.inr (Or.inr ((h2 x (List.mem_filter.2 ⟨h0, by simpa using hxc⟩) y
                        (List.mem_filter.2 ⟨(hbn y h).1, by simpa using (hbn y h).2⟩)).1 e1 e2 h))
              · rintro e1 e2 (rfl | h | h)
                · rcases hy0 with rfl | h0
                  · omega
                  · exact Or.inr (Or.inl ⟨h0, e1.symm⟩)
                · rcases hy0 with rfl | h0
                  · exact Or.inl rfl
                  · exact Or.inr (Or.inl ⟨h0, e1.symm.trans h.2⟩)
                · rcases hy0 with rfl | h0
                  · exact Or.inl rfl
                  · exact Or.inr (Or.inr ((h2 x (List.mem_filter.2 ⟨(hbn x h).1, by simpa using (hbn x h).2⟩) y
                        (List.mem_filter.2 ⟨h0, by have := (hbn x h).2; simp; omega⟩)).2 e1 e2 h))
        · rintro ⟨h1, h2⟩
          rcases List.sublist_cons_iff.1 h1 with h | ⟨r', rfl, h⟩
          · left
            have hcr : c ∉ r := fun hc => hcl (h.subset hc)
            refine ⟨(sublist_filter _).2 ⟨h, fun x hx => ?_⟩, ?_⟩
            · have hxl := h.subset hx
              have h3 := hc1 x hxl
              simp only [Bool.not_eq_true', decide_eq_false_iff_not]
              intro e
              refine hcr ((h2 c (by simp) x (List.mem_cons_of_mem _ hxl)).1 e.symm ?_ hx)
              have : c.2 ≠ x.2 := fun e2 => h3.2.2 (Prod.ext e.symm e2)
              omega
            · intro x hx y hy
              exact h2 x (List.mem_cons_of_mem _ (hRs.subset hx)) y (List.mem_cons_of_mem _ (hRs.subset hy))
          · right
            have hp := takeWhile_eq_filter (fun d : Nat × Nat => decide (d.2 = c.2)) (l := r') (by
              refine (hc2.sublist h).imp_of_mem ?_
              intro x y hx hy h' hy1
              have := (hc1 x (h.subset hx)).2.1
              have h1 := h'.2.1
              simp only [decide_eq_true_eq] at hy1 ⊢
              omega)
            have he : r'.filter (fun d => decide (d.2 = c.2)) = l.filter (fun d => decide (d.2 = c.2)) := by
              refine sublist_eq_of_subset (h.filter _) (hnd.filter _) ?_
              intro x hx
              obtain ⟨hx1, hx2⟩ := List.mem_filter.1 hx
              refine List.mem_filter.2 ⟨?_, hx2⟩
              have h3 := hc1 x hx1
              have hx2' : x.2 = c.2 := by simpa using hx2
              have hne : x ≠ c := fun e => h3.2.2 e.symm
              have h4 : x.1 < c.1 := by
                have : x.1 ≠ c.1 := fun e => hne (Prod.ext e hx2')
                omega
              have := (h2 c (by simp) x (List.mem_cons_of_mem _ hx1)).2 hx2'.symm h4 (by simp)
              exact (List.mem_cons.1 this).resolve_left hne
            refine ⟨r'.filter (fun d => !decide (d.2 = c.2)), ?_, ?_⟩
            · rw [j2]
              refine ⟨h.filter _, ?_⟩
              intro x hx y hy
              obtain ⟨hx1, hx2⟩ := List.mem_filter.1 hx
              obtain ⟨hy1, hy2⟩ := List.mem_filter.1 hy
              have h5 := h2 x (List.mem_cons_of_mem _ hx1) y (List.mem_cons_of_mem _ hy1)
              have hxc : x ≠ c := fun e => hcl (e ▸ hx1)
              have hyc : y ≠ c := fun e => hcl (e ▸ hy1)
              simp only [List.mem_cons, hxc, hyc, false_or] at h5
              simp only [List.mem_filter, hx2, hy2, and_true]
              exact h5
            · rw [List.cons_append, ← he, ← hp.1, ← hp.2, List.takeWhile_append_dropWhile]

theorem rimsHelper_spec {l : List (Nat × Nat)} (hl : IsPath l) :
    (rimsHelper l).Nodup ∧ ∀ r, r ∈ rimsHelper l ↔ r.Sublist l ∧ ClosedIn l r :=
  rimsHelperAux_spec (l.length + 1) (Nat.lt_succ_self _) hl

end Verif.Partition
