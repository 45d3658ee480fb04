import Verif.Lemmas.Strips
import Mathlib.Data.Nat.Find
import Mathlib.Algebra.BigOperators.Group.Finset.Basic
import Mathlib.Data.Finset.Prod
import Mathlib.Algebra.BigOperators.Group.Finset.Sigma

set_option linter.unusedSectionVars false

/-! The set generated by `_semistandard`. -/

namespace Verif.Tab

theorem get?_eq_of_ent {T : Tab} (hne : ∀ b, T.get? b ≠ some []) (b : Nat × Nat) :
    T.get? b = if T.ent b = [] then none else some (T.ent b) := by
  unfold ent
  cases h : T.get? b with
  | none => simp
  | some s =>
    have := hne b
    rw [h] at this
    simp at this
    simp [this]

theorem ext_ent {T T' : Tab} (h1 : ∀ b, T.get? b ≠ some []) (h2 : ∀ b, T'.get? b ≠ some [])
    (h : ∀ b, T.ent b = T'.ent b) : T = T' := by
  apply ext_get?
  intro b
  rw [get?_eq_of_ent h1, get?_eq_of_ent h2, h]

/-- Keep the entries satisfying `P`, drop empty boxes. -/
def keep (P : Int → Bool) (T : Tab) : Tab :=
  ⟨(T.items.map (fun p => (p.1, p.2.filter P))).filter (fun p => decide (p.2 ≠ [])), by
    have h1 : ((T.items.map (fun p => (p.1, p.2.filter P))).map Prod.fst).Pairwise boxLt := by
      rw [List.map_map]; exact T.sorted
    exact h1.sublist ((List.filter_sublist).map _)⟩

theorem keep_ne (P : Int → Bool) (T : Tab) (b : Nat × Nat) : (T.keep P).get? b ≠ some [] := by
  intro h
  rw [get?_eq_some] at h
  simp [keep] at h

theorem ent_keep (P : Int → Bool) (T : Tab) (b : Nat × Nat) : (T.keep P).ent b = (T.ent b).filter P := by
  unfold ent
  cases h : (T.keep P).get? b with
  | some s =>
    rw [get?_eq_some] at h
    simp only [keep, List.mem_filter, List.mem_map, Prod.mk.injEq, decide_eq_true_eq] at h
    obtain ⟨⟨⟨b', s'⟩, h1, rfl, rfl⟩, h3⟩ := h
    rw [get?_eq_some.2 h1]
    rfl
  | none =>
    cases h' : T.get? b with
    | none => simp
    | some s =>
      rw [get?_eq_some] at h'
      by_contra hne
      have : (b, s.filter P) ∈ (T.keep P).items := by
        simp only [keep, List.mem_filter, List.mem_map, Prod.mk.injEq, decide_eq_true_eq]
        refine ⟨⟨(b, s), h', rfl, rfl⟩, ?_⟩
        intro h0
        apply hne
        simp [h0]
      rw [← get?_eq_some, h] at this
      exact absurd this (by simp)

end Verif.Tab

namespace Verif.Tableaux

open Part Partition Tab

attribute [-simp] List.getD_eq_getElem?_getD

/-- Set-valued (or, if `sv = false`, ordinary) semistandard tableaux of shape `mu/lam` with entries in `1..n`. -/
structure SV (sv : Bool) (n : Nat) (mu lam : List Nat) (T : Tab) : Prop where
  ne : ∀ b, T.get? b ≠ some []
  dom : ∀ b, T.ent b ≠ [] ↔ b ∈ Diagram mu ∧ b ∉ Diagram lam
  sorted : ∀ b, (T.ent b).Pairwise (· < ·)
  range : ∀ b, ∀ x ∈ T.ent b, 1 ≤ x ∧ x ≤ (n : Int)
  single : sv = false → ∀ b, (T.ent b).length ≤ 1
  row : ∀ i j j', j < j' → ∀ x ∈ T.ent (i, j), ∀ y ∈ T.ent (i, j'), x ≤ y
  col : ∀ i i' j, i < i' → ∀ x ∈ T.ent (i, j), ∀ y ∈ T.ent (i', j), x < y

theorem SV.lt {sv n mu lam T} (h : SV sv n mu lam T) : ∀ b, ∀ x ∈ T.ent b, x < ((n : Int) + 1) := by
  intro b x hx
  have := (h.range b x hx).2
  omega

theorem SV.dom_of_mem {sv n mu lam T} (h : SV sv n mu lam T) {b : Nat × Nat} {x : Int} (hx : x ∈ T.ent b) :
    b ∈ Diagram mu ∧ b ∉ Diagram lam := (h.dom b).1 (List.ne_nil_of_mem hx)

/-- What is needed of the boxes receiving the newest letter. -/
structure Aug (sv : Bool) (s : List Nat × List (Nat × Nat) × List (Nat × Nat)) (aug : List (Nat × Nat)) : Prop where
  nodup : aug.Nodup
  diff : ∀ b ∈ s.2.1, b ∈ aug
  mem : ∀ b ∈ aug, b ∈ s.2.1 ∨ (sv = true ∧ b ∈ s.2.2)

theorem subsetBits_spec (corners diff : List (Nat × Nat)) (hd : diff.Nodup) (v : Nat) :
    (subsetBits diff v corners).Nodup ∧ (∀ b ∈ diff, b ∈ subsetBits diff v corners) ∧
      ∀ b ∈ subsetBits diff v corners, b ∈ diff ∨ b ∈ corners := by
  induction corners generalizing diff v with
  | nil => simpa [subsetBits] using hd
  | cons c corners ih =>
    rw [subsetBits]
    have hmem : ∀ b, b ∈ (if v % 2 = 0 then diff else if c ∈ diff then diff else diff ++ [c]) →
        b ∈ diff ∨ b = c := by
      intro b hb
      split at hb
      · exact Or.inl hb
      · split at hb
        · exact Or.inl hb
        · rw [List.mem_append, List.mem_singleton] at hb; exact hb
    have hsub : ∀ b ∈ diff, b ∈ (if v % 2 = 0 then diff else if c ∈ diff then diff else diff ++ [c]) := by
      intro b hb
      split
      · exact hb
      · split
        · exact hb
        · exact List.mem_append_left _ hb
    have hnd : (if v % 2 = 0 then diff else if c ∈ diff then diff else diff ++ [c]).Nodup := by
      split
      · exact hd
      · split
        · exact hd
        · rename_i h
          rw [List.nodup_append]
          refine ⟨hd, by simp, ?_⟩
          intro a ha b hb
          simp at hb; subst hb
          rintro rfl; exact h ha
    obtain ⟨h1, h2, h3⟩ := ih _ hnd (v / 2)
    refine ⟨h1, fun b hb => h2 b (hsub b hb), fun b hb => ?_⟩
    rcases h3 b hb with h | h
    · rcases hmem b h with h | h
      · exact Or.inl h
      · exact Or.inr (by simp [h])
    · exact Or.inr (List.mem_cons_of_mem _ h)

/-- Every subset of the corners is selected by some bit pattern. -/
theorem subsetBits_surj (P : Nat × Nat → Prop) [DecidablePred P] (corners diff : List (Nat × Nat)) :
    ∃ v, v < 2 ^ corners.length ∧ ∀ b, b ∈ subsetBits diff v corners ↔ b ∈ diff ∨ (b ∈ corners ∧ P b) := by
  induction corners generalizing diff with
  | nil => exact ⟨0, by simp, by simp [subsetBits]⟩
  | cons c corners ih =>
    by_cases hP : P c
    · obtain ⟨v, hv, h⟩ := ih (if c ∈ diff then diff else diff ++ [c])
      refine ⟨2 * v + 1, by rw [List.length_cons, Nat.pow_succ]; omega, fun b => ?_⟩
      rw [subsetBits, if_neg (by omega), show (2 * v + 1) / 2 = v by omega, h]
      have : b ∈ (if c ∈ diff then diff else diff ++ [c]) ↔ b ∈ diff ∨ b = c := by
        split
        · rename_i hc
          exact ⟨Or.inl, fun h => h.elim id (fun h => h ▸ hc)⟩
        · rw [List.mem_append, List.mem_singleton]
      rw [this, List.mem_cons]
      constructor
      · rintro ((h | rfl) | h)
        · exact Or.inl h
        · exact Or.inr ⟨Or.inl rfl, hP⟩
        · exact Or.inr ⟨Or.inr h.1, h.2⟩
      · rintro (h | ⟨rfl | h1, h2⟩)
        · exact Or.inl (Or.inl h)
        · exact Or.inl (Or.inr rfl)
        · exact Or.inr ⟨h1, h2⟩
    · obtain ⟨v, hv, h⟩ := ih diff
      refine ⟨2 * v, by rw [List.length_cons, Nat.pow_succ]; omega, fun b => ?_⟩
      rw [subsetBits, if_pos (by omega), show (2 * v) / 2 = v by omega, h, List.mem_cons]
      constructor
      · rintro (h | h)
        · exact Or.inl h
        · exact Or.inr ⟨Or.inr h.1, h.2⟩
      · rintro (h | ⟨rfl | h1, h2⟩)
        · exact Or.inl h
        · exact absurd h2 hP
        · exact Or.inr ⟨h1, h2⟩

/-- For corners outside `diff`, the bits select the box (and only they do). -/
theorem subsetBits_mem (corners diff : List (Nat × Nat)) (hc : corners.Nodup) (hdisj : ∀ b ∈ corners, b ∉ diff)
    (v v' : Nat) (hv : v < 2 ^ corners.length) (hv' : v' < 2 ^ corners.length)
    (h : ∀ b, b ∈ subsetBits diff v corners ↔ b ∈ subsetBits diff v' corners) : v = v' := by
  induction corners generalizing diff v v' with
  | nil => simp at hv hv'; omega
  | cons c corners ih =>
    rw [List.nodup_cons] at hc
    rw [List.length_cons, Nat.pow_succ] at hv hv'
    have hmem : ∀ v, c ∈ subsetBits diff v (c :: corners) ↔ v % 2 ≠ 0 := by
      intro v
      have hcd := hdisj c (by simp)
      rw [subsetBits]
      have key : ∀ (corners diff : List (Nat × Nat)) (v : Nat), c ∉ corners →
          (c ∈ subsetBits diff v corners ↔ c ∈ diff) := by
        intro corners
        induction corners with
        | nil => intro diff v _; simp [subsetBits]
        | cons c' corners ih =>
          intro diff v hcn
          simp only [List.mem_cons, not_or] at hcn
          rw [subsetBits, ih _ _ hcn.2]
          split
          · rfl
          · split
            · rfl
            · simp [hcn.1]
      rw [key _ _ _ hc.1]
      by_cases h0 : v % 2 = 0
      · simp [h0, hcd]
      · simp [h0, hcd]
    have hpar : v % 2 = v' % 2 := by
      have := (hmem v).symm.trans ((h c).trans (hmem v'))
      omega
    have := ih (if v % 2 = 0 then diff else if c ∈ diff then diff else diff ++ [c]) hc.2 (by
      intro b hb
      have h1 := hdisj b (List.mem_cons_of_mem _ hb)
      have h2 : b ≠ c := by rintro rfl; exact hc.1 hb
      split
      · exact h1
      · split
        · exact h1
        · simp [h1, h2]) (v / 2) (v' / 2) (by omega) (by omega) (by
          intro b
          have := h b
          rw [subsetBits, subsetBits, ← hpar] at this
          exact this)
    omega

theorem StripRec.corner_in {mu lam s} (h : StripRec mu lam s) {b : Nat × Nat} (hb : b ∈ s.2.2) :
    b ∈ Diagram s.1 ∧ b ∉ Diagram lam := by
  obtain ⟨i, h1, rfl⟩ := (h.corner_mem b).1 hb
  rw [mem_diagram, mem_diagram]
  simp only [Nat.add_sub_cancel]
  have : lam.getD i 0 ≤ coreRow mu lam i := le_max_right _ _
  omega

theorem StripRec.corner_notMem_diff {mu lam s} (h : StripRec mu lam s) {b : Nat × Nat} (hb : b ∈ s.2.2) :
    b ∉ s.2.1 := fun hd => ((h.diff_mem b).1 hd).2 (h.corner_in hb).1

theorem subsets_nodup {mu lam s} (h : StripRec mu lam s) (sv : Bool) : (subsets s.2.1 s.2.2 sv).Nodup := by
  unfold subsets
  split
  · refine List.nodup_range.map_on ?_
    intro v hv v' hv' he
    rw [List.mem_range] at hv hv'
    exact subsetBits_mem _ _ h.corner_nodup (fun b hb => h.corner_notMem_diff hb) v v' hv hv' (by rw [he]; simp)
  · simp

theorem subsets_ext {mu lam s} (h : StripRec mu lam s) {sv : Bool} {a a' : List (Nat × Nat)}
    (ha : a ∈ subsets s.2.1 s.2.2 sv) (ha' : a' ∈ subsets s.2.1 s.2.2 sv) (he : ∀ b, b ∈ a ↔ b ∈ a') : a = a' := by
  unfold subsets at ha ha'
  split at ha
  · rename_i hs
    rw [if_pos hs] at ha'
    obtain ⟨v, hv, rfl⟩ := List.mem_map.1 ha
    obtain ⟨v', hv', rfl⟩ := List.mem_map.1 ha'
    rw [List.mem_range] at hv hv'
    rw [subsetBits_mem _ _ h.corner_nodup (fun b hb => h.corner_notMem_diff hb) v v' hv hv' he]
  · rename_i hs
    rw [if_neg hs] at ha'
    simp at ha ha'
    rw [ha, ha']

theorem subsets_aug {mu lam s} (h : StripRec mu lam s) {sv : Bool} {a : List (Nat × Nat)}
    (ha : a ∈ subsets s.2.1 s.2.2 sv) : Aug sv s a := by
  unfold subsets at ha
  split at ha
  · rename_i hs
    obtain ⟨v, _, rfl⟩ := List.mem_map.1 ha
    obtain ⟨h1, h2, h3⟩ := subsetBits_spec s.2.2 s.2.1 h.diff_nodup v
    exact ⟨h1, h2, fun b hb => (h3 b hb).imp id (fun h => ⟨hs, h⟩)⟩
  · simp at ha
    subst ha
    exact ⟨h.diff_nodup, fun b hb => hb, fun b hb => Or.inl hb⟩

theorem sv_step {sv n mu lam s aug T'} (hm : IsPartition mu) (h : StripRec mu lam s)
    (ha : Aug sv s aug) (hT : SV sv n s.1 lam T') : SV sv (n + 1) mu lam (addAll aug (n + 1) T') := by
  have hent := ent_addAll aug ha.nodup (n + 1) T' hT.sorted hT.lt
  have hmem : ∀ b x, x ∈ (addAll aug (n + 1) T').ent b ↔ x ∈ T'.ent b ∨ (b ∈ aug ∧ x = (n : Int) + 1) := by
    intro b x
    rw [hent, List.mem_append]
    by_cases hb : b ∈ aug <;> simp [hb]
  have hanti := getD_antitone hm.1
  have haug : ∀ i j, (i, j) ∈ aug → 1 ≤ i ∧ mu.getD i 0 < j ∧ s.1.getD (i - 1) 0 ≤ j ∧ lam.getD (i - 1) 0 < j ∧
      j ≤ mu.getD (i - 1) 0 := by
    intro i j hij
    rcases ha.mem _ hij with hd | ⟨_, hc⟩
    · have := (h.diff_mem _).1 hd
      rw [mem_diagram, mem_diagram] at this
      have h1 := h.strip.2 (i - 1)
      unfold coreRow at h1
      rw [show i - 1 + 1 = i by omega] at h1
      omega
    · obtain ⟨i', h1, h2⟩ := (h.corner_mem _).1 hc
      rw [Prod.mk.injEq] at h2
      obtain ⟨rfl, rfl⟩ := h2
      have h3 := h.strip.2 i'
      unfold coreRow at h1
      simp only [Nat.add_sub_cancel]
      omega
  have hsub : ∀ b, b ∈ Diagram s.1 → b ∈ Diagram mu := by
    rintro ⟨i, j⟩ hb
    rw [mem_diagram] at hb ⊢
    have := (h.strip.2 (i - 1)).2
    omega
  have hsub2 : ∀ b, b ∈ Diagram lam → b ∈ Diagram s.1 := by
    rintro ⟨i, j⟩ hb
    rw [mem_diagram] at hb ⊢
    have := (h.strip.2 (i - 1)).1
    unfold coreRow at this
    omega
  have hdom : ∀ b, (addAll aug (n + 1) T').ent b ≠ [] ↔ b ∈ Diagram mu ∧ b ∉ Diagram lam := by
    intro b
    have : (addAll aug (n + 1) T').ent b ≠ [] ↔ T'.ent b ≠ [] ∨ b ∈ aug := by
      rw [hent]
      by_cases hb : b ∈ aug <;> simp [hb]
    rw [this, hT.dom]
    constructor
    · rintro (h1 | h1)
      · exact ⟨hsub _ h1.1, h1.2⟩
      · rcases ha.mem _ h1 with hd | ⟨_, hc⟩
        · have := (h.diff_mem _).1 hd
          exact ⟨this.1, fun hl => this.2 (hsub2 _ hl)⟩
        · have := h.corner_in hc
          exact ⟨hsub _ this.1, this.2⟩
    · rintro ⟨h1, h2⟩
      by_cases hb : b ∈ Diagram s.1
      · exact Or.inl ⟨hb, h2⟩
      · exact Or.inr (ha.diff _ ((h.diff_mem _).2 ⟨h1, hb⟩))
  refine ⟨?_, hdom, ?_, ?_, ?_, ?_, ?_⟩
  · intro b
    rw [get?_addAll aug ha.nodup (n + 1) T' hT.sorted hT.lt]
    split
    · simp
    · exact hT.ne b
  · intro b
    rw [hent, List.pairwise_append]
    refine ⟨hT.sorted b, by split <;> simp, ?_⟩
    intro x hx y hy
    split at hy
    · simp at hy; rw [hy]; exact hT.lt b x hx
    · simp at hy
  · intro b x hx
    rcases (hmem b x).1 hx with h1 | ⟨_, rfl⟩
    · have := hT.range b x h1
      push_cast; omega
    · push_cast; omega
  · intro hs b
    rw [hent, List.length_append]
    split
    · rename_i hb
      rcases ha.mem _ hb with hd | ⟨h1, _⟩
      · have : T'.ent b = [] := by
          by_contra hne
          exact ((h.diff_mem _).1 hd).2 ((hT.dom b).1 hne).1
        simp [this]
      · rw [hs] at h1; exact absurd h1 (by simp)
    · simpa using hT.single hs b
  · intro i j j' hj x hx y hy
    rcases (hmem _ _).1 hy with h1 | ⟨_, rfl⟩
    · rcases (hmem _ _).1 hx with h2 | ⟨h2, rfl⟩
      · exact hT.row i j j' hj x h2 y h1
      · have h3 := haug _ _ h2
        have h4 := (hT.dom_of_mem h1).1
        rw [mem_diagram] at h4
        omega
    · rcases (hmem _ _).1 hx with h2 | ⟨h2, rfl⟩
      · exact le_of_lt (hT.lt _ _ h2)
      · exact le_rfl
  · intro i i' j hi x hx y hy
    have h4 := ((hdom _).1 (List.ne_nil_of_mem hy)).1
    rw [mem_diagram] at h4
    rcases (hmem _ _).1 hx with h2 | ⟨h2, rfl⟩
    · rcases (hmem _ _).1 hy with h1 | ⟨_, rfl⟩
      · exact hT.col i i' j hi x h2 y h1
      · exact hT.lt _ _ h2
    · have h3 := haug _ _ h2
      have := hanti (show i ≤ i' - 1 by omega)
      simp only at this
      omega

/-- The largest shape filled with letters at most `n`. -/
theorem sv_unstep {sv n mu lam T} (hm : IsPartition mu) (hl : IsPartition lam)
    (hsub : ∀ i, lam.getD i 0 ≤ mu.getD i 0) (hT : SV sv (n + 1) mu lam T) :
    ∃ nu, IsStrip mu lam nu ∧ SV sv n nu lam (T.keep (fun x => decide (x ≤ (n : Int)))) ∧
      (∀ b, (n : Int) + 1 ∈ T.ent b ↔ (b ∈ Diagram mu ∧ b ∉ Diagram nu) ∨
        ((∃ i, coreRow mu lam i < nu.getD i 0 ∧ b = (i + 1, nu.getD i 0)) ∧ (n : Int) + 1 ∈ T.ent b)) ∧
      (sv = false → ∀ i, coreRow mu lam i < nu.getD i 0 → (n : Int) + 1 ∉ T.ent (i + 1, nu.getD i 0)) := by
  classical
  have hmanti := pairwise_ge_iff.1 hm.1
  have hlanti := pairwise_ge_iff.1 hl.1
  -- boxes
  have hbox : ∀ i j, (T.ent (i + 1, j) ≠ []) ↔ (lam.getD i 0 < j ∧ j ≤ mu.getD i 0) := by
    intro i j
    rw [hT.dom, mem_diagram, mem_diagram]
    simp only [Nat.add_sub_cancel]
    omega
  let P : Nat → Nat → Prop := fun i j => j ≤ lam.getD i 0 ∨ ∃ x ∈ T.ent (i + 1, j), x ≤ (n : Int)
  let f : Nat → Nat := fun i => Nat.findGreatest (P i) (mu.getD i 0)
  have hdown : ∀ i j j', j < j' → j' ≤ mu.getD i 0 → P i j' → P i j := by
    intro i j j' hj hj' hp
    by_cases hjl : j ≤ lam.getD i 0
    · exact Or.inl hjl
    · rcases hp with hp | ⟨x, hx, hxn⟩
      · omega
      · right
        obtain ⟨y, hy⟩ := List.exists_mem_of_ne_nil _ ((hbox i j).2 ⟨by omega, by omega⟩)
        exact ⟨y, hy, le_trans (hT.row _ _ _ hj y hy x hx) hxn⟩
  have hf : ∀ i j, j ≤ mu.getD i 0 → (j ≤ f i ↔ P i j) := by
    intro i j hj
    constructor
    · intro hjf
      have hP0 : P i 0 := Or.inl (Nat.zero_le _)
      have hpf : P i (f i) := Nat.findGreatest_spec (m := 0) (Nat.zero_le _) hP0
      rcases Nat.lt_or_eq_of_le hjf with h | h
      · exact hdown i j (f i) h (Nat.findGreatest_le _) hpf
      · rw [h]; exact hpf
    · exact fun h => Nat.le_findGreatest hj h
  have hfle : ∀ i, f i ≤ mu.getD i 0 := fun i => Nat.findGreatest_le _
  have hlf : ∀ i, lam.getD i 0 ≤ f i := fun i => (hf i _ (hsub i)).2 (Or.inl le_rfl)
  have hmf : ∀ i, mu.getD (i + 1) 0 ≤ f i := by
    intro i
    rw [hf i _ (hmanti i)]
    by_cases hc : mu.getD (i + 1) 0 ≤ lam.getD i 0
    · exact Or.inl hc
    · right
      obtain ⟨x, hx⟩ := List.exists_mem_of_ne_nil _ ((hbox i (mu.getD (i + 1) 0)).2 ⟨by omega, hmanti i⟩)
      obtain ⟨y, hy⟩ := List.exists_mem_of_ne_nil _ ((hbox (i + 1) (mu.getD (i + 1) 0)).2
        ⟨by have := hlanti i; omega, le_rfl⟩)
      refine ⟨x, hx, ?_⟩
      have h1 := hT.col (i + 1) (i + 1 + 1) _ (by omega) x hx y hy
      have h2 := (hT.range _ y hy).2
      push_cast at h2
      omega
  let nu0 : List Nat := (List.range mu.length).map f
  have hnu0 : ∀ i, nu0.getD i 0 = f i := by
    intro i
    rw [getD_map_range]
    split
    · rfl
    · have := hfle i
      rw [List.getD_eq_default mu 0 (by omega)] at this
      omega
  have hpw : nu0.Pairwise (· ≥ ·) := by
    rw [pairwise_ge_iff]
    intro i
    rw [hnu0, hnu0]
    have := hmf i
    have := hfle (i + 1)
    omega
  have hnu : ∀ i, (trim nu0).getD i 0 = f i := fun i => by rw [getD_trim, hnu0]
  have hnuD : ∀ i j, (i + 1, j) ∈ Diagram (trim nu0) ↔ 1 ≤ j ∧ j ≤ f i := by
    intro i j
    rw [mem_diagram, Nat.add_sub_cancel, hnu]
    omega
  have hmuD : ∀ i j, (i + 1, j) ∈ Diagram mu ↔ 1 ≤ j ∧ j ≤ mu.getD i 0 := by
    intro i j
    rw [mem_diagram, Nat.add_sub_cancel]
    omega
  have hT' := ent_keep (fun x => decide (x ≤ (n : Int))) T
  have hmem' : ∀ b x, x ∈ (T.keep (fun x => decide (x ≤ (n : Int)))).ent b ↔ x ∈ T.ent b ∧ x ≤ n := by
    intro b x
    rw [hT', List.mem_filter, decide_eq_true_eq]
  refine ⟨trim nu0, ⟨trim_isPartition hpw, fun i => ?_⟩, ⟨?_, ?_, ?_, ?_, ?_, ?_, ?_⟩, ?_, ?_⟩
  · rw [hnu]
    refine ⟨?_, hfle i⟩
    exact max_le (hmf i) (hlf i)
  · exact keep_ne _ T
  · rintro ⟨i, j⟩
    have hex : (T.keep (fun x => decide (x ≤ (n : Int)))).ent (i, j) ≠ [] ↔
        T.ent (i, j) ≠ [] ∧ ∃ x ∈ T.ent (i, j), x ≤ (n : Int) := by
      constructor
      · intro h
        obtain ⟨x, hx⟩ := List.exists_mem_of_ne_nil _ h
        rw [hmem'] at hx
        exact ⟨List.ne_nil_of_mem hx.1, x, hx⟩
      · rintro ⟨_, x, hx⟩
        exact List.ne_nil_of_mem ((hmem' _ _).2 hx)
    rw [hex]
    cases i with
    | zero =>
      rw [hT.dom, mem_diagram, mem_diagram]
      simp
      intro h
      rw [mem_diagram] at h
      omega
    | succ i =>
      rw [hbox, hnuD, mem_diagram, Nat.add_sub_cancel]
      constructor
      · rintro ⟨⟨h1, h2⟩, h3⟩
        exact ⟨⟨by omega, (hf i j h2).2 (Or.inr h3)⟩, by omega⟩
      · rintro ⟨⟨h1, h2⟩, h3⟩
        have h4 := hfle i
        have h5 := (hf i j (by omega)).1 h2
        refine ⟨⟨by omega, by omega⟩, ?_⟩
        rcases h5 with h5 | h5
        · omega
        · exact h5
  · intro b
    rw [hT']
    exact (hT.sorted b).filter _
  · intro b x hx
    rw [hmem'] at hx
    exact ⟨(hT.range b x hx.1).1, hx.2⟩
  · intro hs b
    rw [hT']
    exact le_trans (List.length_filter_le _ _) (hT.single hs b)
  · intro i j j' hj x hx y hy
    rw [hmem'] at hx hy
    exact hT.row i j j' hj x hx.1 y hy.1
  · intro i i' j hi x hx y hy
    rw [hmem'] at hx hy
    exact hT.col i i' j hi x hx.1 y hy.1
  · rintro ⟨i, j⟩
    constructor
    · intro hb
      have hd := hT.dom_of_mem hb
      cases i with
      | zero => rw [mem_diagram] at hd; omega
      | succ i =>
        by_cases hin : (i + 1, j) ∈ Diagram (trim nu0)
        · right
          refine ⟨⟨i, ?_, ?_⟩, hb⟩
          all_goals
            rw [hnuD] at hin
            have hjl := (hbox i j).1 (List.ne_nil_of_mem hb)
            have hjf : j = f i := by
              by_contra hne
              have hlt : j < f i := by omega
              have := (hf i (f i) (hfle i)).1 le_rfl
              rcases this with h1 | ⟨x, hx, hxn⟩
              · omega
              · have := hT.row _ _ _ hlt _ hb x hx
                omega
          · rw [hnu]
            apply max_lt
            · by_contra hc
              obtain ⟨y, hy⟩ := List.exists_mem_of_ne_nil _ ((hbox (i + 1) j).2
                ⟨by have := hlanti i; omega, by omega⟩)
              have h1 := hT.col (i + 1) (i + 1 + 1) _ (by omega) _ hb y hy
              have h2 := (hT.range _ y hy).2
              push_cast at h2
              omega
            · omega
          · rw [hnu, hjf]
        · exact Or.inl ⟨hd.1, hin⟩
    · rintro (⟨h1, h2⟩ | h)
      · cases i with
        | zero => rw [mem_diagram] at h1; omega
        | succ i =>
          rw [hmuD] at h1
          rw [hnuD] at h2
          have h3 := hlf i
          obtain ⟨x, hx⟩ := List.exists_mem_of_ne_nil _ ((hbox i j).2 ⟨by omega, by omega⟩)
          have h4 : ¬ P i j := fun hp => h2 ⟨h1.1, (hf i j h1.2).2 hp⟩
          have h5 : ¬ x ≤ (n : Int) := fun hxn => h4 (Or.inr ⟨x, hx, hxn⟩)
          have h6 := (hT.range _ x hx).2
          push_cast at h6
          have : x = (n : Int) + 1 := by omega
          rw [← this]; exact hx
      · exact h.2
  · intro hs i hi hc
    rw [hnu] at hi hc
    have h1 := (hf i (f i) (hfle i)).1 le_rfl
    rcases h1 with h1 | ⟨x, hx, hxn⟩
    · have : lam.getD i 0 ≤ coreRow mu lam i := le_max_right _ _
      omega
    · have := hT.single hs (i + 1, f i)
      match hl : T.ent (i + 1, f i) with
      | [] => rw [hl] at hc; simp at hc
      | [a] =>
        rw [hl] at hc hx
        simp at hc hx
        omega
      | a :: b :: t => rw [hl] at this; simp at this

theorem filter_le_append {l : List Int} {n : Int} (h : l.Pairwise (· < ·)) (hn : ∀ x ∈ l, x ≤ n + 1) :
    l = l.filter (fun x => decide (x ≤ n)) ++ (if n + 1 ∈ l then [n + 1] else []) := by
  induction l with
  | nil => simp
  | cons a t ih =>
    rw [List.pairwise_cons] at h
    have ih := ih h.2 (fun x hx => hn x (List.mem_cons_of_mem _ hx))
    by_cases ha : a ≤ n
    · rw [List.filter_cons_of_pos (by simpa using ha)]
      have : n + 1 ∈ a :: t ↔ n + 1 ∈ t := by
        rw [List.mem_cons]
        constructor
        · rintro (h | h)
          · omega
          · exact h
        · exact Or.inr
      simp only [this, List.cons_append]
      congr 1
    · have ha' : a = n + 1 := by have := hn a (by simp); omega
      have ht : t = [] := by
        rcases t with _ | ⟨b, t⟩
        · rfl
        · have h1 := h.1 b (by simp)
          have h2 := hn b (by simp)
          omega
      subst ht
      simp [ha']

theorem keep_addAll {sv n mu lam aug T} (hnd : aug.Nodup) (hT : SV sv n mu lam T) :
    (addAll aug (n + 1) T).keep (fun x => decide (x ≤ (n : Int))) = T := by
  apply ext_ent (keep_ne _ _) hT.ne
  intro b
  rw [ent_keep, ent_addAll aug hnd (n + 1) T hT.sorted hT.lt, List.filter_append]
  have h1 : (T.ent b).filter (fun x => decide (x ≤ (n : Int))) = T.ent b := by
    rw [List.filter_eq_self]
    intro x hx
    simpa using (hT.range b x hx).2
  rw [h1]
  split <;> simp

theorem sv_base {sv n mu T} : SV sv n mu mu T ↔ T = Tab.empty := by
  constructor
  · intro h
    apply ext_ent h.ne (by intro b; rw [get?_empty]; simp)
    intro b
    by_contra hne
    have h0 : Tab.empty.ent b = [] := rfl
    rw [h0] at hne
    have := (h.dom b).1 hne
    exact this.2 this.1
  · rintro rfl
    have h0 : ∀ b, Tab.empty.ent b = [] := fun b => rfl
    refine ⟨by intro b; rw [get?_empty]; simp, ?_, ?_, ?_, ?_, ?_, ?_⟩ <;> simp [h0]

theorem strips_of_not_contains {mu lam : List Nat} (h : ¬ contains mu lam = true) :
    horizontalStrips mu lam = [] := by
  rw [horizontalStrips, horizontalStrips?, if_neg h]; rfl

theorem contains_self (mu : List Nat) (hm : IsPartition mu) : contains mu mu = true :=
  (contains_iff hm.2).2 (fun _ => le_rfl)

/-- `_semistandard` in terms of its set of tableaux. -/
theorem mem_semistandard {sv : Bool} {lam : List Nat} (hl : IsPartition lam) (n : Nat) :
    ∀ {mu : List Nat}, IsPartition mu → ∀ T,
      (T ∈ semistandard sv lam n mu ↔ (∀ i, lam.getD i 0 ≤ mu.getD i 0) ∧ SV sv n mu lam T) := by
  induction n with
  | zero =>
    intro mu hm T
    rw [semistandard]
    by_cases h : mu = lam
    · subst h
      simp [sv_base]
    · rw [if_neg h]
      simp only [Finset.notMem_empty, false_iff, not_and]
      intro hsub hT
      apply h
      apply row_ext hm.2 hl.2
      intro i
      by_contra hne
      have h1 : T.ent (i + 1, mu.getD i 0) ≠ [] := by
        rw [hT.dom, mem_diagram, mem_diagram, Nat.add_sub_cancel]
        have := hsub i
        omega
      obtain ⟨x, hx⟩ := List.exists_mem_of_ne_nil _ h1
      have := hT.range _ x hx
      simp at this
      omega
  | succ n ih =>
    intro mu hm T
    rw [semistandard]
    by_cases h : mu = lam
    · subst h
      simp [sv_base]
    · rw [if_neg h]
      by_cases hc : contains mu lam = true
      · rw [if_pos hc]
        obtain ⟨_, _, hrec, hex⟩ := horizontalStrips_spec hm hl hc
        have hsub := (contains_iff hl.2).1 hc
        simp only [Finset.mem_biUnion, List.mem_toFinset, Finset.mem_image]
        constructor
        · rintro ⟨s, hs, aug, haug, T', hT', rfl⟩
          have hr := hrec s hs
          rw [ih hr.strip.1] at hT'
          exact ⟨hsub, sv_step hm hr (subsets_aug hr haug) hT'.2⟩
        · rintro ⟨_, hT⟩
          obtain ⟨nu, h1, h2, h3, h4⟩ := sv_unstep hm hl hsub hT
          obtain ⟨s, hs, rfl⟩ := hex nu h1
          have hr := hrec s hs
          have haug : ∃ aug ∈ subsets s.2.1 s.2.2 sv, ∀ b, b ∈ aug ↔ (n : Int) + 1 ∈ T.ent b := by
            cases sv with
            | true =>
              obtain ⟨v, hv, hmem⟩ := subsetBits_surj (fun b => (n : Int) + 1 ∈ T.ent b) s.2.2 s.2.1
              refine ⟨subsetBits s.2.1 v s.2.2, ?_, fun b => ?_⟩
              · rw [subsets, if_pos rfl]
                exact List.mem_map.2 ⟨v, List.mem_range.2 hv, rfl⟩
              · rw [hmem, hr.diff_mem, hr.corner_mem]
                exact (h3 b).symm
            | false =>
              refine ⟨s.2.1, by simp [subsets], fun b => ?_⟩
              rw [h3, hr.diff_mem]
              constructor
              · exact Or.inl
              · rintro (h | ⟨⟨i, hi, rfl⟩, hb⟩)
                · exact h
                · exact absurd hb (h4 rfl i hi)
          obtain ⟨aug, ha, hmem⟩ := haug
          refine ⟨s, hs, aug, ha, T.keep (fun x => decide (x ≤ (n : Int))), ?_, ?_⟩
          · rw [ih h1.1]
            refine ⟨fun i => ?_, h2⟩
            exact le_trans (le_max_right _ _) (h1.2 i).1
          · have hnd := (subsets_aug hr ha).nodup
            apply ext_ent ?_ hT.ne
            · intro b
              rw [ent_addAll aug hnd (n + 1) _ h2.sorted h2.lt, ent_keep]
              have := filter_le_append (n := n) (hT.sorted b) (fun x hx => by
                have := (hT.range b x hx).2
                push_cast at this
                exact this)
              conv_rhs => rw [this]
              congr 1
              simp only [hmem]
            · intro b
              rw [get?_addAll aug hnd (n + 1) _ h2.sorted h2.lt]
              split
              · simp
              · exact h2.ne b
      · rw [if_neg hc]
        simp only [Finset.notMem_empty, false_iff, not_and]
        intro hsub
        exact absurd ((contains_iff hl.2).2 hsub) hc

/-- The recursion of `_semistandard` also describes the case `mu = lam`. -/
theorem semistandard_succ {sv : Bool} {lam : List Nat} (hl : IsPartition lam) (n : Nat) {mu : List Nat}
    (hm : IsPartition mu) :
    semistandard sv lam (n + 1) mu =
      (horizontalStrips mu lam).toFinset.biUnion (fun s =>
        (subsets s.2.1 s.2.2 sv).toFinset.biUnion (fun aug =>
          (semistandard sv lam n s.1).image (addAll aug (n + 1)))) := by
  by_cases h : mu = lam
  · subst h
    have hc := contains_self mu hm
    obtain ⟨_, _, hrec, hex⟩ := horizontalStrips_spec hm hm hc
    ext T
    rw [mem_semistandard hm (n + 1) hm]
    simp only [le_refl, implies_true, true_and, sv_base, Finset.mem_biUnion, List.mem_toFinset, Finset.mem_image]
    have hanti := pairwise_ge_iff.1 hm.1
    have hnu : ∀ s ∈ horizontalStrips mu mu, s = (mu, [], []) := by
      intro s hs
      have hr := hrec s hs
      have e1 : s.1 = mu := row_ext hr.strip.1.2 hm.2 (fun i => by
        have := hr.strip.2 i
        have := hanti i
        unfold coreRow at *
        omega)
      obtain ⟨s1, s2, s3⟩ := s
      simp only at e1
      subst e1
      have e2 : s2 = [] := by
        by_contra hne
        obtain ⟨b, hb⟩ := List.exists_mem_of_ne_nil _ hne
        have := (hr.diff_mem b).1 hb
        exact this.2 this.1
      have e3 : s3 = [] := by
        by_contra hne
        obtain ⟨b, hb⟩ := List.exists_mem_of_ne_nil _ hne
        have := hr.corner_in hb
        exact this.2 this.1
      rw [e2, e3]
    have hst : IsStrip mu mu mu := ⟨hm, fun i => by have := hanti i; unfold coreRow; omega⟩
    constructor
    · rintro rfl
      obtain ⟨s, hs, _⟩ := hex mu hst
      have e := hnu s hs
      subst e
      refine ⟨_, hs, [], ?_, Tab.empty, ?_, rfl⟩
      · cases sv <;> simp [subsets, subsetBits]
      · rw [mem_semistandard hm n hm]
        exact ⟨fun _ => le_rfl, sv_base.2 rfl⟩
    · rintro ⟨s, hs, aug, ha, T', hT', rfl⟩
      have e := hnu s hs
      subst e
      rw [mem_semistandard hm n hm] at hT'
      have := sv_base.1 hT'.2
      subst this
      have : aug = [] := by
        cases sv <;> simpa [subsets, subsetBits] using ha
      subst this
      rfl
  · rw [semistandard, if_neg h]
    by_cases hc : contains mu lam = true
    · rw [if_pos hc]
    · rw [if_neg hc, strips_of_not_contains hc]
      simp

/-- Summing over the tableaux of `_semistandard(n + 1, mu, lam)`: every strip, set of corners and smaller tableau
gives one tableau. -/
theorem sum_semistandard_succ {R : Type*} [AddCommMonoid R] {sv : Bool} {lam : List Nat} (hl : IsPartition lam)
    (n : Nat) {mu : List Nat} (hm : IsPartition mu) (f : Tab → R) :
    ∑ T ∈ semistandard sv lam (n + 1) mu, f T =
      ∑ s ∈ (horizontalStrips mu lam).toFinset, ∑ aug ∈ (subsets s.2.1 s.2.2 sv).toFinset,
        ∑ T ∈ semistandard sv lam n s.1, f (addAll aug (n + 1) T) := by
  rw [semistandard_succ hl n hm]
  by_cases hc : contains mu lam = true
  swap
  · rw [strips_of_not_contains hc]; simp
  obtain ⟨_, hnd, hrec, _⟩ := horizontalStrips_spec hm hl hc
  have hmemv : ∀ s ∈ horizontalStrips mu lam, ∀ aug ∈ subsets s.2.1 s.2.2 sv,
      ∀ T' ∈ semistandard sv lam n s.1, ∀ b, (n : Int) + 1 ∈ (addAll aug (n + 1) T').ent b ↔ b ∈ aug := by
    intro s hs aug ha T' hT' b
    have hr := hrec s hs
    have hsv := ((mem_semistandard hl n hr.strip.1 T').1 hT').2
    rw [ent_addAll aug (subsets_aug hr ha).nodup (n + 1) T' hsv.sorted hsv.lt, List.mem_append]
    have : (n : Int) + 1 ∉ T'.ent b := fun h => by have := hsv.lt b _ h; omega
    by_cases hb : b ∈ aug <;> simp [hb, this]
  have hkeep : ∀ s ∈ horizontalStrips mu lam, ∀ aug ∈ subsets s.2.1 s.2.2 sv,
      ∀ T' ∈ semistandard sv lam n s.1,
        (addAll aug (n + 1) T').keep (fun x => decide (x ≤ (n : Int))) = T' := by
    intro s hs aug ha T' hT'
    have hr := hrec s hs
    have hsv := ((mem_semistandard hl n hr.strip.1 T').1 hT').2
    exact keep_addAll (subsets_aug hr ha).nodup hsv
  rw [Finset.sum_biUnion]
  · refine Finset.sum_congr rfl (fun s hs => ?_)
    rw [List.mem_toFinset] at hs
    rw [Finset.sum_biUnion]
    · refine Finset.sum_congr rfl (fun aug ha => ?_)
      rw [List.mem_toFinset] at ha
      rw [Finset.sum_image]
      intro T hT T' hT' he
      rw [← hkeep s hs aug ha T hT, ← hkeep s hs aug ha T' hT']
      rw [he]
    · intro aug ha aug' ha' hne
      simp only [Function.onFun, Finset.disjoint_left, Finset.mem_image, not_exists, not_and]
      rintro T ⟨T1, hT1, rfl⟩ T2 hT2 he
      apply hne
      rw [Finset.mem_coe, List.mem_toFinset] at ha ha'
      apply subsets_ext (hrec s hs) ha ha'
      intro b
      rw [← hmemv s hs aug ha T1 hT1, ← hmemv s hs aug' ha' T2 hT2, he]
  · intro s hs s' hs' hne
    simp only [Function.onFun, Finset.disjoint_left, Finset.mem_biUnion, Finset.mem_image, not_exists, not_and]
    rintro T ⟨aug, ha, T1, hT1, rfl⟩ aug' ha' T2 hT2 he
    apply hne
    rw [Finset.mem_coe, List.mem_toFinset] at hs hs'
    rw [List.mem_toFinset] at ha ha'
    apply horizontalStrips_inj hnd hs hs'
    have h1 := hkeep s hs aug ha T1 hT1
    have h2 := hkeep s' hs' aug' ha' T2 hT2
    rw [he] at h2
    have h3 : T1 = T2 := by rw [← h1, ← h2]
    have hr := hrec s hs
    have hr' := hrec s' hs'
    subst h3
    obtain ⟨hs1, hv1⟩ := (mem_semistandard hl n hr.strip.1 T1).1 hT1
    obtain ⟨hs2, hv2⟩ := (mem_semistandard hl n hr'.strip.1 T1).1 hT2
    apply diagram_inj hr.strip.1.2 hr'.strip.1.2
    ext b
    have e := (hv1.dom b).symm.trans (hv2.dom b)
    by_cases hb : b ∈ Diagram lam
    · have i1 : b ∈ Diagram s.1 := diagram_subset.2 hs1 hb
      have i2 : b ∈ Diagram s'.1 := diagram_subset.2 hs2 hb
      exact ⟨fun _ => i2, fun _ => i1⟩
    · constructor
      · intro h; exact (e.1 ⟨h, hb⟩).1
      · intro h; exact (e.2 ⟨h, hb⟩).1

end Verif.Tableaux
