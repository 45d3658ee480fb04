import Verif.Lemmas.MarkedCount
import Verif.Spec.Tableau

/-! Marked tableaux: the letter-by-letter description and the description by fillings. -/

attribute [-simp] List.getD_eq_getElem?_getD

namespace Verif.Tableaux

open Tab Verif.Part Partition Symm

/-- The place of a marked letter in the order `1' < 1 < 2' < 2 < ...`, starting with 1. -/
def letterRank (x : Int) : Nat := if 0 < x then 2 * x.natAbs else 2 * x.natAbs - 1

theorem letterRank_val (sh sv dp : Bool) {k : Nat} (hk : 1 ≤ k) : letterRank ((markRules sh sv dp).val k) = k := by
  rcases Nat.even_or_odd' k with ⟨m, rfl | rfl⟩
  · obtain ⟨i, rfl⟩ : ∃ i, m = i + 1 := ⟨m - 1, by omega⟩
    rw [show 2 * (i + 1) = 2 * i + 2 by ring, markRules_val_even, letterRank, if_pos (by omega)]
    omega
  · rw [markRules_val_odd, letterRank, if_neg (by omega)]
    omega

theorem val_letterRank (sh sv dp : Bool) {x : Int} (hx : 1 ≤ |x|) : (markRules sh sv dp).val (letterRank x) = x := by
  rw [Int.abs_eq_natAbs] at hx
  rw [letterRank]
  by_cases h : 0 < x
  · rw [if_pos h]
    obtain ⟨i, hi⟩ : ∃ i, x.natAbs = i + 1 := ⟨x.natAbs - 1, by omega⟩
    rw [hi, show 2 * (i + 1) = 2 * i + 2 by ring, markRules_val_even]
    omega
  · rw [if_neg h]
    obtain ⟨i, hi⟩ : ∃ i, x.natAbs = i + 1 := ⟨x.natAbs - 1, by omega⟩
    rw [hi, show 2 * (i + 1) - 1 = 2 * i + 1 by omega, markRules_val_odd]
    omega

theorem letterRank_bounds {x : Int} {n : Nat} : (1 ≤ |x| ∧ |x| ≤ n) ↔ 1 ≤ |x| ∧ 1 ≤ letterRank x ∧ letterRank x ≤ 2 * n := by
  rw [Int.abs_eq_natAbs, letterRank]
  split <;> omega

theorem markedLT_iff {x y : Int} (hx : 1 ≤ |x|) (hy : 1 ≤ |y|) : MarkedLT x y ↔ letterRank x < letterRank y := by
  rw [MarkedLT]
  simp only [Int.abs_eq_natAbs] at *
  simp only [letterRank]
  split <;> split <;> omega

theorem letterRank_inj {x y : Int} (hx : 1 ≤ |x|) (hy : 1 ≤ |y|) : letterRank x = letterRank y ↔ x = y :=
  ⟨fun h => by rw [← val_letterRank false false false hx, ← val_letterRank false false false hy, h], fun h => by rw [h]⟩

theorem letterRank_even {x : Int} (hx : 1 ≤ |x|) : letterRank x % 2 = 0 ↔ 0 < x := by
  rw [Int.abs_eq_natAbs] at hx
  rw [letterRank]
  split <;> omega

theorem row_iff {x y : Int} (hx : 1 ≤ |x|) (hy : 1 ≤ |y|) : (MarkedLT x y ∨ (x = y ∧ 0 < x)) ↔
    letterRank x ≤ letterRank y ∧ (letterRank x = letterRank y → letterRank x % 2 = 0) := by
  rw [markedLT_iff hx hy, ← letterRank_inj hx hy, ← letterRank_even hx]
  omega

theorem col_iff {x y : Int} (hx : 1 ≤ |x|) (hy : 1 ≤ |y|) : (MarkedLT x y ∨ (x = y ∧ x < 0)) ↔
    letterRank x ≤ letterRank y ∧ (letterRank x = letterRank y → letterRank x % 2 = 1) := by
  have h := letterRank_even hx
  rw [markedLT_iff hx hy, ← letterRank_inj hx hy]
  have h2 : x < 0 ↔ ¬ 0 < x := by
    rw [Int.abs_eq_natAbs] at hx
    omega
  rw [h2, ← h]
  omega

variable {sh sv dp : Bool} {lam mu : List Nat}

/-- Choosing entries. -/
theorem exists_choice {T : Tab} {D : Set (Nat × Nat)} (hdom : ∀ b, T.ent b ≠ [] ↔ b ∈ D) (b b' : Nat × Nat) {x y : Int}
    (hx : x ∈ T.ent b) (hy : y ∈ T.ent b') (hne : b = b' → x = y) :
    ∃ f : Nat × Nat → Int, (∀ c ∈ D, f c ∈ T.ent c) ∧ f b = x ∧ f b' = y := by
  classical
  refine ⟨fun c => if c = b then x else if c = b' then y else (T.ent c).headD 0, ?_, by simp, ?_⟩
  · intro c hc
    dsimp only
    split
    · rename_i h; rw [h]; exact hx
    split
    · rename_i h; rw [h]; exact hy
    · have := (hdom c).2 hc
      cases hl : T.ent c with
      | nil => exact absurd hl this
      | cons a t => simp
  · dsimp only
    split
    · rename_i h; exact hne h.symm
    · simp

theorem isTab_iff_marked {n : Nat} {T : Tab} : IsTab (markRules sh sv dp) lam (2 * n) mu T ↔
    shapeSet sh lam ⊆ shapeSet sh mu ∧
      IsTableauOf sv (shapeSet sh mu \ shapeSet sh lam) (IsMarked dp n (shapeSet sh mu \ shapeSet sh lam)) T.get? := by
  obtain ⟨D, hD⟩ : ∃ D, shapeSet sh mu \ shapeSet sh lam = D := ⟨_, rfl⟩
  have hmemD : ∀ b, b ∈ D ↔ b ∈ shapeSet sh mu ∧ b ∉ shapeSet sh lam := fun b => by rw [← hD]; exact Iff.rfl
  rw [hD]
  have hrow : ∀ k, (markRules sh sv dp).rowRep k ↔ k % 2 = 0 := fun k => Iff.rfl
  have hcol : ∀ k, (markRules sh sv dp).colRep k ↔ k % 2 = 1 := fun k => Iff.rfl
  have hdiag : ∀ k, (markRules sh sv dp).diag k ↔ dp = true ∨ k % 2 = 0 := fun k => Iff.rfl
  constructor
  · intro h
    have hg := get?_eq_of_ent h.canon.ne
    have hs : ∀ b s, T.get? b = some s → T.ent b = s := fun b s hb => by rw [ent, hb]; rfl
    have hdom : ∀ b, T.ent b ≠ [] ↔ b ∈ D := fun b => by rw [hmemD]; exact h.dom b
    refine ⟨h.sub, ?_, ?_, ?_⟩
    · intro b
      rw [← hdom, hg b]
      by_cases he : T.ent b = [] <;> simp [he]
    · intro b s hb
      have e := hs b s hb
      refine ⟨?_, e ▸ h.canon.sorted b, fun hsv => ?_⟩
      · rintro rfl
        exact h.canon.ne b hb
      · have h2 := h.single hsv b
        have h3 := h.canon.sorted b
        rw [e] at h2 h3
        match s with
        | [] => exact absurd hb (h.canon.ne b)
        | [x] => rfl
        | x :: y :: t =>
          have := h2 x (by simp) y (by simp)
          have h4 := (List.pairwise_cons.1 h3).1 y (by simp)
          omega
    · intro f hf
      have hf' : ∀ b ∈ D, f b ∈ T.ent b := by
        intro b hb
        have hne := (hdom b).2 hb
        exact hf b _ (by rw [hg b, if_neg hne])
      have hr : ∀ b ∈ D, 1 ≤ |f b| ∧ 1 ≤ letterRank (f b) ∧ letterRank (f b) ≤ 2 * n ∧
          (markRules sh sv dp).val (letterRank (f b)) = f b := by
        intro b hb
        obtain ⟨k, h1, h2, h3⟩ := h.range b _ (hf' b hb)
        have h4 : letterRank (f b) = k := by rw [h3, letterRank_val _ _ _ h1]
        refine ⟨?_, by omega, by omega, by rw [h4, h3]⟩
        rw [h3]
        have h5 : (markRules sh sv dp).val k ≠ 0 := by
          simp only [markRules]
          split <;> omega
        have := Int.one_le_abs h5
        exact this
      refine ⟨fun b hb => letterRank_bounds.2 ⟨(hr b hb).1, (hr b hb).2.1, (hr b hb).2.2.1⟩, ?_, ?_, ?_⟩
      · intro i j h1 h2
        obtain ⟨a1, a2, a3, a4⟩ := hr _ h1
        obtain ⟨b1, b2, b3, b4⟩ := hr _ h2
        rw [row_iff a1 b1]
        exact h.row i j _ _ (by rw [a4]; exact hf' _ h1) (by rw [b4]; exact hf' _ h2)
      · intro i j h1 h2
        obtain ⟨a1, a2, a3, a4⟩ := hr _ h1
        obtain ⟨b1, b2, b3, b4⟩ := hr _ h2
        rw [col_iff a1 b1]
        exact h.col i j _ _ (by rw [a4]; exact hf' _ h1) (by rw [b4]; exact hf' _ h2)
      · intro hdp i h1
        obtain ⟨a1, a2, a3, a4⟩ := hr _ h1
        rw [← letterRank_even a1]
        rcases h.diag i _ (by rw [a4]; exact hf' _ h1) with h2 | h2
        · rw [hdp] at h2; cases h2
        · exact h2
  · rintro ⟨hsub, h1, h2, h3⟩
    have hne : ∀ b, T.get? b ≠ some [] := fun b hb => (h2 b _ hb).1 rfl
    have hg := get?_eq_of_ent hne
    have hdom : ∀ b, T.ent b ≠ [] ↔ b ∈ D := by
      intro b
      rw [← h1 b, hg b]
      by_cases he : T.ent b = [] <;> simp [he]
    have hsome : ∀ b, T.ent b ≠ [] → T.get? b = some (T.ent b) := fun b hb => by rw [hg b, if_neg hb]
    have hch : ∀ f : Nat × Nat → Int, (∀ c ∈ D, f c ∈ T.ent c) → IsMarked dp n D f := by
      intro f hf
      refine h3 f (fun b s hb => ?_)
      have e : T.ent b = s := by rw [ent, hb]; rfl
      rw [← e]
      exact hf b ((hdom b).1 (by rw [e]; exact (h2 b s hb).1))
    have hin : ∀ b x, x ∈ T.ent b → b ∈ D := fun b x hx => (hdom b).1 (List.ne_nil_of_mem hx)
    have hrange : ∀ b x, x ∈ T.ent b → 1 ≤ |x| ∧ |x| ≤ n := by
      intro b x hx
      obtain ⟨f, f1, f2, _⟩ := exists_choice hdom b b hx hx (fun _ => rfl)
      have := (hch f f1).1 b (hin b x hx)
      rwa [f2] at this
    have hk : ∀ k b, (markRules sh sv dp).val k ∈ T.ent b → letterRank ((markRules sh sv dp).val k) = k := by
      intro k b hb
      have h4 := (hrange b _ hb).1
      have := markRules_inj sh sv dp (val_letterRank sh sv dp h4)
      exact this
    refine ⟨⟨hne, ?_⟩, hsub, fun b => by rw [hdom, hmemD]; rfl, ?_, ?_, ?_, ?_, ?_⟩
    · intro b
      by_cases he : T.ent b = []
      · rw [he]; exact List.Pairwise.nil
      · exact (h2 b _ (hsome b he)).2.1
    · intro b x hx
      have := hrange b x hx
      obtain ⟨h4, h5, h6⟩ := letterRank_bounds.1 this
      exact ⟨_, h5, h6, (val_letterRank sh sv dp h4).symm⟩
    · intro hsv b x hx y hy
      have := (h2 b _ (hsome b (List.ne_nil_of_mem hx))).2.2 hsv
      obtain ⟨z, hz⟩ := List.length_eq_one_iff.1 this
      rw [hz] at hx hy
      simp at hx hy
      rw [hx, hy]
    · intro i j k l hx hy
      obtain ⟨f, f1, f2, f3⟩ := exists_choice hdom (i, j) (i, j + 1) hx hy (fun e => by simp at e)
      have := (hch f f1).2.1 i j (hin _ _ hx) (hin _ _ hy)
      rw [f2, f3, row_iff (hrange _ _ hx).1 (hrange _ _ hy).1, hk k _ hx, hk l _ hy] at this
      exact this
    · intro i j k l hx hy
      obtain ⟨f, f1, f2, f3⟩ := exists_choice hdom (i, j) (i + 1, j) hx hy (fun e => by simp at e)
      have := (hch f f1).2.2.1 i j (hin _ _ hx) (hin _ _ hy)
      rw [f2, f3, col_iff (hrange _ _ hx).1 (hrange _ _ hy).1, hk k _ hx, hk l _ hy] at this
      exact this
    · intro i k hx
      rw [hdiag]
      cases hdp : dp with
      | true => exact Or.inl rfl
      | false =>
        obtain ⟨f, f1, f2, _⟩ := exists_choice hdom (i, i) (i, i) hx hx (fun _ => rfl)
        have := (hch f f1).2.2.2 hdp i (hin _ _ hx)
        rw [f2, ← letterRank_even (hrange _ _ hx).1, hk k _ hx] at this
        exact Or.inr this

/-! ### weights -/

theorem foldl_count (l : List Int) (n : Nat) (ans : List Nat) (hans : ans.length = n)
    (hl : ∀ x ∈ l, 1 ≤ x.natAbs ∧ x.natAbs ≤ n) :
    (l.foldl (fun (ans : List Nat) x => ans.set (x.natAbs - 1) (ans.getD (x.natAbs - 1) 0 + 1)) ans).length = n ∧
    ∀ i < n, (l.foldl (fun (ans : List Nat) x => ans.set (x.natAbs - 1) (ans.getD (x.natAbs - 1) 0 + 1)) ans).getD i 0 =
      ans.getD i 0 + (l.count ((i : Int) + 1) + l.count (-((i : Int) + 1))) := by
  induction l generalizing ans with
  | nil => exact ⟨hans, fun i hi => rfl⟩
  | cons x l ih =>
    obtain ⟨h1, h2⟩ := hl x (by simp)
    obtain ⟨h3, h4⟩ := ih (ans.set (x.natAbs - 1) (ans.getD (x.natAbs - 1) 0 + 1)) (by rw [List.length_set, hans])
      (fun y hy => hl y (by simp [hy]))
    refine ⟨h3, fun i hi => ?_⟩
    rw [List.foldl_cons, h4 i hi, List.count_cons, List.count_cons]
    have h5 : (ans.set (x.natAbs - 1) (ans.getD (x.natAbs - 1) 0 + 1)).getD i 0 =
        ans.getD i 0 + if x.natAbs - 1 = i then 1 else 0 := by
      rw [List.getD_eq_getElem _ _ (by rw [List.length_set]; omega), List.getElem_set]
      split
      · rename_i h; rw [h]
      · have := List.getD_eq_getElem ans 0 (show i < ans.length by omega)
        omega
    rw [h5]
    simp only [beq_iff_eq]
    by_cases hx : 0 < x
    · rw [if_neg (show ¬ x = -((i : Int) + 1) by omega)]
      by_cases hxi : x = (i : Int) + 1
      · rw [if_pos hxi, if_pos (by omega)]; ring
      · rw [if_neg hxi, if_neg (by omega)]; ring
    · rw [if_neg (show ¬ x = (i : Int) + 1 by omega)]
      by_cases hxi : x = -((i : Int) + 1)
      · rw [if_pos hxi, if_pos (by omega)]; ring
      · rw [if_neg hxi, if_neg (by omega)]; ring

theorem foldl_entries (T : Tab) (F : List Nat → Int → List Nat) (ans : List Nat) :
    T.items.foldl (fun ans p => p.2.foldl F ans) ans = T.entries.foldl F ans := by
  rw [entries]
  generalize T.items = l
  induction l generalizing ans with
  | nil => rfl
  | cons a l ih => rw [List.foldl_cons, ih, List.flatMap_cons, List.foldl_append]

/-- `weight(n)` counts the letters, primed or not. -/
theorem weight_spec {n : Nat} {T : Tab} (h : ∀ x ∈ T.entries, 1 ≤ x.natAbs ∧ x.natAbs ≤ n) :
    (weight n T).length = n ∧ ∀ i < n, (weight n T).getD i 0 =
      T.entries.count ((i : Int) + 1) + T.entries.count (-((i : Int) + 1)) := by
  rw [weight, foldl_entries]
  obtain ⟨h1, h2⟩ := foldl_count T.entries n (List.replicate n 0) (by simp) h
  refine ⟨h1, fun i hi => ?_⟩
  rw [h2 i hi, List.getD_eq_getElem _ _ (by simpa using hi)]
  simp

theorem isTab_entries {n : Nat} {T : Tab} (h : IsTab (markRules sh sv dp) lam (2 * n) mu T) :
    ∀ x ∈ T.entries, 1 ≤ x.natAbs ∧ x.natAbs ≤ n := by
  intro x hx
  obtain ⟨b, hb⟩ := mem_entries.1 hx
  by_contra hc
  exact notMem_of_isTab h (by omega) b hb

theorem weight_eq_wtL {n : Nat} {T : Tab} (h : IsTab (markRules sh sv dp) lam (2 * n) mu T) :
    weight n T = wtL n markWeight T := by
  obtain ⟨h1, h2⟩ := weight_spec (isTab_entries h)
  refine List.ext_getElem (by rw [h1, length_wtL]) (fun i h3 h4 => ?_)
  rw [← List.getD_eq_getElem _ 0 h3, ← List.getD_eq_getElem _ 0 h4, h2 i (by omega), getD_wtL _ _ _ (by omega),
    count_entries h.canon, count_entries h.canon, markWeight]

/-- The sum of the weight is the number of entries. -/
theorem sum_count_entries (l : List Int) (n : Nat) (hl : ∀ x ∈ l, 1 ≤ x.natAbs ∧ x.natAbs ≤ n) :
    ∑ i ∈ Finset.range n, (l.count ((i : Int) + 1) + l.count (-((i : Int) + 1))) = l.length := by
  induction l with
  | nil => simp
  | cons x l ih =>
    obtain ⟨h1, h2⟩ := hl x (by simp)
    rw [List.length_cons, ← ih (fun y hy => hl y (by simp [hy]))]
    have : ∀ i ∈ Finset.range n, (x :: l).count ((i : Int) + 1) + (x :: l).count (-((i : Int) + 1)) =
        (l.count ((i : Int) + 1) + l.count (-((i : Int) + 1))) + if i = x.natAbs - 1 then 1 else 0 := by
      intro i hi
      rw [List.count_cons, List.count_cons]
      simp only [beq_iff_eq]
      by_cases hx : 0 < x
      · rw [if_neg (show ¬ x = -((i : Int) + 1) by omega)]
        by_cases hxi : x = (i : Int) + 1
        · rw [if_pos hxi, if_pos (by omega)]; ring
        · rw [if_neg hxi, if_neg (by omega)]; ring
      · rw [if_neg (show ¬ x = (i : Int) + 1 by omega)]
        by_cases hxi : x = -((i : Int) + 1)
        · rw [if_pos hxi, if_pos (by omega)]; ring
        · rw [if_neg hxi, if_neg (by omega)]; ring
    rw [Finset.sum_congr rfl this, Finset.sum_add_distrib, Finset.sum_ite_eq', if_pos (Finset.mem_range.2 (by omega))]

theorem sum_markWeight {n : Nat} {T : Tab} (h : IsTab (markRules sh sv dp) lam (2 * n) mu T) :
    (wtL n markWeight T).sum = T.entries.length := by
  rw [sum_wtL, ← sum_count_entries _ n (isTab_entries h)]
  refine Finset.sum_congr rfl (fun i _ => ?_)
  rw [count_entries h.canon, count_entries h.canon, markWeight]

theorem entries_length_ge {T : Tab} (h : T.Canon) : T.items.length ≤ T.entries.length := by
  rw [entries]
  have : ∀ l : List ((Nat × Nat) × List Int), (∀ p ∈ l, p.2 ≠ []) → l.length ≤ (l.flatMap Prod.snd).length := by
    intro l hl
    induction l with
    | nil => simp
    | cons a l ih =>
      rw [List.flatMap_cons, List.length_append, List.length_cons]
      have := ih (fun p hp => hl p (by simp [hp]))
      have := List.length_pos_iff.2 (hl a (by simp))
      omega
  refine this _ (fun p hp he => ?_)
  apply h.ne p.1
  rw [Tab.get?_eq_some.2 hp, he]

end Verif.Tableaux
