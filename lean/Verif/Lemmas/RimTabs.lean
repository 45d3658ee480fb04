import Verif.Lemmas.KogEnum
import Verif.Lemmas.KlgEnum

/-! From the fillings of one rim to `KOG`, `KLG` and the lists by shape (tableaux.py:1063-1082, 1158-1170). -/

attribute [-simp] List.getD_eq_getElem?_getD

namespace Verif.Tableaux

open Verif.Partition Verif.Part

variable {mu : List Nat}

theorem sorted_skewFrom (sh : Bool) (nu : List Nat) (l : List Nat) : ∀ i, (skewFrom sh nu i l).Pairwise boxLt := by
  induction l with
  | nil => intro i; exact List.Pairwise.nil
  | cons a l ih =>
    intro i
    rw [skewFrom, List.pairwise_append]
    refine ⟨?_, ih (i + 1), ?_⟩
    · rw [List.pairwise_map]
      refine (List.pairwise_lt_range' (n := a - nu.getD i 0)).imp ?_
      intro a b hab
      exact Or.inr ⟨rfl, by dsimp only; omega⟩
    · rintro b hb ⟨i', j'⟩ hc
      obtain ⟨j, _, rfl⟩ := List.mem_map.1 hb
      rw [mem_skewFrom] at hc
      exact Or.inl (by dsimp only; omega)

theorem sorted_skew (mu nu : List Nat) (sh : Bool) : (skew mu nu sh).Pairwise boxLt := sorted_skewFrom sh nu mu 0

theorem mem_skew_shifted {mu nu : List Nat} (b : Nat × Nat) : b ∈ skew mu nu true ↔ b ∈ ShiftedDiagram mu \ ShiftedDiagram nu := by
  obtain ⟨i, j⟩ := b
  rw [skew, mem_skewFrom, Set.mem_sdiff, mem_shiftedDiagram, mem_shiftedDiagram]
  simp only [if_true, Nat.sub_zero]
  omega

theorem rim_ext {nu nu' : List Nat} (hr : IsRim mu nu) (hr' : IsRim mu nu')
    (e : ∀ b, b ∈ ShiftedDiagram nu \ ShiftedDiagram mu ↔ b ∈ ShiftedDiagram nu' \ ShiftedDiagram mu) : nu = nu' := by
  refine row_ext hr.strict.2 hr'.strict.2 (fun t => ?_)
  have h1 := rim_le hr t
  have h2 := rim_le hr' t
  have e1 := e (t + 1, t + 1 + nu.getD t 0)
  have e2 := e (t + 1, t + 1 + nu'.getD t 0)
  rw [mem_rim, mem_rim, Nat.add_sub_cancel] at e1 e2
  omega

theorem addRim?_spec (h : IsStrict mu) {nu : List Nat} (hr : IsRim mu nu) {l : List (Nat × Nat)} (hl : l.Nodup)
    (hm : ∀ b, b ∈ l ↔ b ∈ ShiftedDiagram nu \ ShiftedDiagram mu) : addRim? mu l = some nu := by
  have key : ∀ (l : List (Nat × Nat)) (nu0 : List Nat), (∀ b ∈ l, 1 ≤ b.1 ∧ b.1 - 1 < nu0.length) →
      ∃ nu1, l.foldlM (fun (nu : List Nat) b =>
        if b.1 - 1 < nu.length then some (nu.set (b.1 - 1) (nu.getD (b.1 - 1) 0 + 1)) else none) nu0 = some nu1 ∧
        nu1.length = nu0.length ∧ ∀ t, nu1.getD t 0 = nu0.getD t 0 + (l.filter (fun b => decide (b.1 = t + 1))).length := by
    intro l
    induction l with
    | nil => intro nu0 _; exact ⟨nu0, rfl, rfl, fun t => by simp⟩
    | cons b l ih =>
      intro nu0 hb
      have hb0 := hb b (by simp)
      obtain ⟨nu1, h1, h2, h3⟩ := ih (nu0.set (b.1 - 1) (nu0.getD (b.1 - 1) 0 + 1)) (fun c hc => by
        rw [List.length_set]; exact hb c (by simp [hc]))
      refine ⟨nu1, ?_, by rw [h2, List.length_set], fun t => ?_⟩
      · rw [List.foldlM_cons, if_pos hb0.2]
        exact h1
      · rw [h3, List.filter_cons]
        by_cases e : b.1 = t + 1
        · have e' : b.1 - 1 = t := by omega
          rw [if_pos (by simpa using e), List.length_cons, e', List.getD_eq_getElem _ _ (by rw [List.length_set]; omega),
            List.getElem_set_self]
          omega
        · rw [if_neg (by simpa using e)]
          congr 1
          by_cases ht : t < nu0.length
          · rw [List.getD_eq_getElem _ _ (by rwa [List.length_set]), List.getD_eq_getElem _ _ ht, List.getElem_set_ne (by omega)]
          · rw [List.getD_eq_default _ _ (by rw [List.length_set]; omega), List.getD_eq_default _ _ (by omega)]
  have hrow : ∀ b ∈ l, 1 ≤ b.1 ∧ b.1 - 1 < (mu ++ [0]).length := by
    rintro ⟨i, j⟩ hb
    rw [hm, mem_rim] at hb
    refine ⟨hb.1, ?_⟩
    dsimp only
    rw [List.length_append, List.length_singleton]
    by_contra hc
    obtain ⟨t, rfl⟩ : ∃ t, i = t + 2 := ⟨i - 2, by omega⟩
    have h1 := rim_interlace h hr t
    have h2 : mu.getD t 0 = 0 := List.getD_eq_default _ _ (by omega)
    simp only [show t + 2 - 1 = t + 1 by omega] at hb
    omega
  obtain ⟨nu1, h1, h2, h3⟩ := key l (mu ++ [0]) hrow
  rw [addRim?, h1, Option.map_some]
  congr 1
  have hget : ∀ t, nu1.getD t 0 = nu.getD t 0 := by
    intro t
    rw [h3]
    have e1 : (mu ++ [0]).getD t 0 = mu.getD t 0 := by
      by_cases ht : t < mu.length
      · rw [List.getD_append _ _ _ _ ht]
      · rw [List.getD_append_right _ _ _ _ (by omega), List.getD_eq_default (l := mu) _ (by omega)]
        rcases Nat.eq_zero_or_pos (t - mu.length) with e | e
        · rw [e]; rfl
        · rw [List.getD_eq_default _ _ (by rw [List.length_singleton]; omega)]
    have e2 : (l.filter (fun b => decide (b.1 = t + 1))).Perm
        ((List.range (nu.getD t 0 - mu.getD t 0)).map (fun k => (t + 1, t + 1 + mu.getD t 0 + k))) := by
      refine (List.perm_ext_iff_of_nodup (hl.filter _) (List.nodup_range.map (fun a b e => by
        have := congrArg Prod.snd e
        dsimp only at this
        omega))).2 ?_
      rintro ⟨i, j⟩
      rw [List.mem_filter, hm, mem_rim, decide_eq_true_eq, List.mem_map]
      constructor
      · rintro ⟨h4, h5⟩
        dsimp only at h5
        subst h5
        rw [Nat.add_sub_cancel] at h4
        exact ⟨j - (t + 1 + mu.getD t 0), List.mem_range.2 (by omega), by rw [Prod.mk.injEq]; omega⟩
      · rintro ⟨k, hk, e⟩
        rw [Prod.mk.injEq] at e
        rw [List.mem_range] at hk
        obtain ⟨rfl, rfl⟩ := e
        rw [Nat.add_sub_cancel]
        refine ⟨by omega, rfl⟩
    rw [e1, e2.length_eq, List.length_map, List.length_range]
    have := rim_le hr t
    omega
  have hpos : ∀ a ∈ trim nu1, 0 < a := by
    refine (trim_isStrict_of_next (fun i => ?_)).2
    rw [hget, hget]
    exact strict_next hr.strict i
  refine row_ext hpos hr.strict.2 (fun t => ?_)
  rw [getD_trim, hget]

theorem Fills.boxes {T : Tab} {D : Set (Nat × Nat)} {f : Nat × Nat → Int} (h : Fills T D f) (b : Nat × Nat) :
    b ∈ T.items.map Prod.fst ↔ b ∈ D := by
  constructor
  · intro hb
    by_contra hc
    have := h.2 b hc
    exact absurd hb (Dict.lookup_eq_none.1 this)
  · intro hb
    exact List.mem_map.2 ⟨(b, [f b]), Tab.get?_eq_some.1 (h.1 b hb), rfl⟩

variable {P : Set (Nat × Nat) → (Nat × Nat → Int) → Prop}

theorem tabs_of_rims (h : IsStrict mu) {bnd : Nat} {H : List (Nat × Nat) → List Tab}
    (hH : ∀ R, R.Nodup → (H R).Nodup ∧ ∀ T, T ∈ H R ↔ ∃ f, P {b | b ∈ R} f ∧ Fills T {b | b ∈ R} f)
    (hb : ∀ nu f, IsRim mu nu → P (ShiftedDiagram nu \ ShiftedDiagram mu) f → nu.getD 0 0 ≤ mu.getD 0 0 + bnd) :
    ∃ L, rims? mu bnd = some L ∧ (L.flatMap H).Nodup ∧ ∀ T, T ∈ L.flatMap H ↔
      ∃ nu f, IsRim mu nu ∧ P (ShiftedDiagram nu \ ShiftedDiagram mu) f ∧ Fills T (ShiftedDiagram nu \ ShiftedDiagram mu) f := by
  obtain ⟨L, hL, hn, hm⟩ := rims?_spec h bnd
  refine ⟨L, hL, ?_, fun T => ?_⟩
  · rw [List.nodup_flatMap]
    refine ⟨fun R hR => (hH R (nodup_of_boxLt ((hm R).1 hR).1)).1, ?_⟩
    refine hn.imp_of_mem ?_
    intro R R' hR hR' hne T hT hT'
    obtain ⟨f, _, hf⟩ := ((hH R (nodup_of_boxLt ((hm R).1 hR).1)).2 T).1 hT
    obtain ⟨f', _, hf'⟩ := ((hH R' (nodup_of_boxLt ((hm R').1 hR').1)).2 T).1 hT'
    refine hne (boxes_ext ((hm R).1 hR).1 ((hm R').1 hR').1 (fun b => ?_))
    exact (hf.boxes b).symm.trans (hf'.boxes b)
  · rw [List.mem_flatMap]
    constructor
    · rintro ⟨R, hR, hT⟩
      obtain ⟨hs, nu, hr, _, hD⟩ := (hm R).1 hR
      obtain ⟨f, hf, hf'⟩ := ((hH R (nodup_of_boxLt hs)).2 T).1 hT
      have e : {b | b ∈ R} = ShiftedDiagram nu \ ShiftedDiagram mu := Set.ext hD
      rw [e] at hf hf'
      exact ⟨nu, f, hr, hf, hf'⟩
    · rintro ⟨nu, f, hr, hf, hf'⟩
      have hnd : (T.items.map Prod.fst).Pairwise boxLt := T.sorted
      have hR := (hm (T.items.map Prod.fst)).2 ⟨hnd, nu, hr, hb nu f hr hf, fun b => hf'.boxes b⟩
      refine ⟨_, hR, ((hH _ (nodup_of_boxLt hnd)).2 T).2 ⟨f, ?_⟩⟩
      have e : {b | b ∈ T.items.map Prod.fst} = ShiftedDiagram nu \ ShiftedDiagram mu := Set.ext fun b => hf'.boxes b
      rw [e]
      exact ⟨hf, hf'⟩

theorem byShapeLoop_spec (sh : Tab → List Nat) (l : List Tab) : ∀ (d : Dict (List Nat) (List Tab)),
    (∀ T ∈ l, addRim? mu (T.items.map Prod.fst) = some (sh T)) →
    ∃ d', byShapeLoop mu l d = some d' ∧ (∀ nu, (d'.get? nu).getD [] = (d.get? nu).getD [] ++ l.filter (fun T => decide (sh T = nu))) ∧
      ∀ nu, d'.get? nu ≠ none ↔ d.get? nu ≠ none ∨ l.filter (fun T => decide (sh T = nu)) ≠ [] := by
  induction l with
  | nil => intro d _; exact ⟨d, rfl, fun nu => by simp, fun nu => by simp⟩
  | cons T l ih =>
    intro d hl
    obtain ⟨d', h1, h2, h3⟩ := ih (d.set (sh T) ((d.get? (sh T)).getD [] ++ [T])) (fun T' h' => hl T' (by simp [h']))
    refine ⟨d', ?_, fun nu => ?_, fun nu => ?_⟩
    · rw [byShapeLoop, hl T (by simp)]
      exact h1
    · rw [h2, List.filter_cons, Dict.get?_set]
      by_cases e : sh T = nu
      · subst e
        simp
      · simp [e]
    · rw [h3, List.filter_cons, Dict.get?_set]
      by_cases e : sh T = nu
      · subst e
        simp
      · simp [e]

/-- The dictionary lists the tableaux of each shape. -/
def ListsByShape (mu : List Nat) (P : Set (Nat × Nat) → (Nat × Nat → Int) → Prop) (d : Dict (List Nat) (List Tab)) : Prop :=
  (∀ nu ts, (nu, ts) ∈ d.items → IsRim mu nu ∧ ts ≠ [] ∧ ts.Nodup ∧ ∀ T, T ∈ ts ↔
    ∃ f, P (ShiftedDiagram nu \ ShiftedDiagram mu) f ∧ Fills T (ShiftedDiagram nu \ ShiftedDiagram mu) f) ∧
  ∀ nu f, IsRim mu nu → P (ShiftedDiagram nu \ ShiftedDiagram mu) f → ∃ ts, (nu, ts) ∈ d.items

theorem byShape_of_tabs (h : IsStrict mu) {l : List Tab} (hl : l.Nodup)
    (hm : ∀ T, T ∈ l ↔ ∃ nu f, IsRim mu nu ∧ P (ShiftedDiagram nu \ ShiftedDiagram mu) f ∧
      Fills T (ShiftedDiagram nu \ ShiftedDiagram mu) f) :
    ∃ d, byShapeLoop mu l Dict.empty = some d ∧ ListsByShape mu P d := by
  classical
  have hsh : ∀ T ∈ l, ∀ nu f, IsRim mu nu → Fills T (ShiftedDiagram nu \ ShiftedDiagram mu) f →
      addRim? mu (T.items.map Prod.fst) = some nu := fun T _ nu f hr hf =>
    addRim?_spec h hr (nodup_of_boxLt T.sorted) (fun b => hf.boxes b)
  obtain ⟨d, h1, h2, h3⟩ := byShapeLoop_spec (mu := mu) (fun T => (addRim? mu (T.items.map Prod.fst)).getD []) l Dict.empty
    (fun T hT => by
      obtain ⟨nu, f, hr, _, hf⟩ := (hm T).1 hT
      rw [hsh T hT nu f hr hf, Option.getD_some])
  have hmem : ∀ nu ts, (nu, ts) ∈ d.items → ts = l.filter (fun T => decide ((addRim? mu (T.items.map Prod.fst)).getD [] = nu)) := by
    intro nu ts hi
    have := h2 nu
    rw [Dict.get?_eq_some.2 hi, Dict.get?_empty] at this
    simpa using this
  have hshape : ∀ nu, ∀ T ∈ l.filter (fun T => decide ((addRim? mu (T.items.map Prod.fst)).getD [] = nu)), IsRim mu nu ∧
      ∃ f, P (ShiftedDiagram nu \ ShiftedDiagram mu) f ∧ Fills T (ShiftedDiagram nu \ ShiftedDiagram mu) f := by
    intro nu T hT
    rw [List.mem_filter, decide_eq_true_eq] at hT
    obtain ⟨nu', f, hr, hp, hf⟩ := (hm T).1 hT.1
    have e := hT.2
    rw [hsh T hT.1 nu' f hr hf, Option.getD_some] at e
    subst e
    exact ⟨hr, f, hp, hf⟩
  refine ⟨d, h1, fun nu ts hi => ?_, fun nu f hr hp => ?_⟩
  · have e := hmem nu ts hi
    have hne : ts ≠ [] := by
      have := (h3 nu).1 (by rw [Dict.get?_eq_some.2 hi]; simp)
      rw [Dict.get?_empty] at this
      rw [e]
      simpa using this
    obtain ⟨T, hT⟩ := List.exists_mem_of_ne_nil _ hne
    rw [e] at hT
    have hr := (hshape nu T hT).1
    refine ⟨hr, hne, e ▸ hl.filter _, fun T => ?_⟩
    rw [e]
    constructor
    · intro hT
      exact (hshape nu T hT).2
    · rintro ⟨f, hp, hf⟩
      have hT := (hm T).2 ⟨nu, f, hr, hp, hf⟩
      rw [List.mem_filter, decide_eq_true_eq, hsh T hT nu f hr hf]
      exact ⟨hT, rfl⟩
  · obtain ⟨T, hT⟩ := exists_fills (nodup_of_boxLt (sorted_skew nu mu true)) mem_skew_shifted f
    have hTl := (hm T).2 ⟨nu, f, hr, hp, hT⟩
    have := (h3 nu).2 (Or.inr (List.ne_nil_of_mem (List.mem_filter.2 ⟨hTl, by
      rw [decide_eq_true_eq, hsh T hTl nu f hr hT]; rfl⟩)))
    obtain ⟨ts, hts⟩ := Option.ne_none_iff_exists'.1 this
    exact ⟨ts, Dict.get?_eq_some.1 hts⟩

theorem rim_row_length {nu : List Nat} {g : Nat → Int} {m : Int} {s : Nat}
    (hg : ∀ j, 1 + mu.getD 0 0 + s ≤ j → j < 1 + nu.getD 0 0 → 1 ≤ g j ∧ g j ≤ m)
    (hlt : ∀ j, 1 + mu.getD 0 0 + s ≤ j → j + 1 < 1 + nu.getD 0 0 → g j < g (j + 1)) :
    nu.getD 0 0 ≤ mu.getD 0 0 + s ∨ (nu.getD 0 0 : Int) ≤ mu.getD 0 0 + s + m := by
  by_contra hc
  push Not at hc
  have key : ∀ k, 1 + mu.getD 0 0 + s + k < 1 + nu.getD 0 0 → (k : Int) + 1 ≤ g (1 + mu.getD 0 0 + s + k) := by
    intro k
    induction k with
    | zero => intro hk; have := (hg _ (by omega) hk).1; simpa using this
    | succ k ih =>
      intro hk
      have h1 := ih (by omega)
      have h2 := hlt (1 + mu.getD 0 0 + s + k) (by omega) (by omega)
      rw [Nat.add_assoc _ k 1] at h2
      push_cast
      omega
  have h1 := key (nu.getD 0 0 - mu.getD 0 0 - s - 1) (by omega)
  have h2 := (hg (1 + mu.getD 0 0 + s + (nu.getD 0 0 - mu.getD 0 0 - s - 1)) (by omega) (by omega)).2
  omega

theorem kog_bound {nu : List Nat} {p : Nat} {f : Nat × Nat → Int} (h : IsKOG (ShiftedDiagram nu \ ShiftedDiagram mu) p f) :
    nu.getD 0 0 ≤ mu.getD 0 0 + p := by
  have hmem : ∀ j, 1 + mu.getD 0 0 + 0 ≤ j → j < 1 + nu.getD 0 0 → (1, j) ∈ ShiftedDiagram nu \ ShiftedDiagram mu :=
    fun j h1 h2 => mem_rim.2 ⟨le_rfl, by simpa using h1, by simpa using h2⟩
  have := rim_row_length (mu := mu) (nu := nu) (s := 0) (m := p) (g := fun j => f (1, j))
    (fun j h1 h2 => by
      have : f (1, j) ∈ f '' (ShiftedDiagram nu \ ShiftedDiagram mu) := ⟨(1, j), hmem j h1 h2, rfl⟩
      rw [h.content] at this
      exact this)
    (fun j h1 h2 => h.rows 1 j (hmem j h1 (by omega)) (hmem (j + 1) (by omega) h2))
  omega

theorem klg_bound {nu : List Nat} {p : Nat} {f : Nat × Nat → Int} (h : IsKLG (ShiftedDiagram nu \ ShiftedDiagram mu) p f) :
    nu.getD 0 0 ≤ mu.getD 0 0 + (p + 1) := by
  have hmem : ∀ j, 1 + mu.getD 0 0 ≤ j → j < 1 + nu.getD 0 0 → (1, j) ∈ ShiftedDiagram nu \ ShiftedDiagram mu :=
    fun j h1 h2 => mem_rim.2 ⟨le_rfl, by simpa using h1, by simpa using h2⟩
  have habs : ∀ b ∈ ShiftedDiagram nu \ ShiftedDiagram mu, 1 ≤ |f b| ∧ |f b| ≤ p := fun b hb => by
    have : |f b| ∈ (fun b => |f b|) '' (ShiftedDiagram nu \ ShiftedDiagram mu) := ⟨b, hb, rfl⟩
    rw [h.content] at this
    exact this
  have hpos : ∀ j, 1 + mu.getD 0 0 + 1 ≤ j → j < 1 + nu.getD 0 0 → 0 < f (1, j) := by
    intro j h1 h2
    obtain ⟨k, rfl⟩ : ∃ k, j = k + 1 := ⟨j - 1, by omega⟩
    have hk := hmem k (by omega) (by omega)
    have hk1 := hmem (k + 1) (by omega) h2
    rcases lt_trichotomy (f (1, k + 1)) 0 with h3 | h3 | h3
    · exact absurd (h.rows 1 k hk hk1) (h.primed _ hk1 h3 _ hk ⟨le_rfl, by dsimp only; omega⟩)
    · have := habs _ hk1
      rw [h3, abs_zero] at this
      omega
    · exact h3
  have := rim_row_length (mu := mu) (nu := nu) (s := 1) (m := p) (g := fun j => f (1, j))
    (fun j h1 h2 => by
      have h3 := habs _ (hmem j (by omega) h2)
      rw [abs_of_pos (hpos j h1 h2)] at h3
      exact h3)
    (fun j h1 h2 => by
      have h3 := h.rows 1 j (hmem j (by omega) (by omega)) (hmem (j + 1) (by omega) h2)
      have h4 := hpos j h1 (by omega)
      have h5 := hpos (j + 1) (by omega) h2
      rw [LetterLt, abs_of_pos h4, abs_of_pos h5] at h3
      omega)
  omega

end Verif.Tableaux
