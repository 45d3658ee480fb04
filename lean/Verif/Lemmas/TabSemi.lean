import Verif.Model.TabCrystals
import Verif.Lemmas.InsertionStd
import Verif.Lemmas.Words
import Verif.Spec.Tableau

/-! Semistandard (multi)set-valued tableaux: helper lemmas. -/

namespace Verif.Tab

open Verif.Part

attribute [-simp] List.getD_eq_getElem?_getD

/-- The boxes are `D`, with nonempty sorted tuples, strictly sorted unless `m`. -/
structure Base (m : Bool) (D : Set (Nat × Nat)) (T : Tab) : Prop where
  shape : ∀ b, (T.get? b).isSome ↔ b ∈ D
  ne : ∀ b ∈ D, T.ent b ≠ []
  srt : ∀ b, (T.ent b).Pairwise (· ≤ ·)
  strict : m = false → ∀ b, (T.ent b).Pairwise (· < ·)

/-- Semistandard tableaux in terms of entries. -/
structure Semi (m : Bool) (n : Nat) (D : Set (Nat × Nat)) (T : Tab) : Prop extends Base m D T where
  bd : ∀ b, ∀ v ∈ T.ent b, 1 ≤ v ∧ v ≤ n
  row : ∀ i j, ∀ v ∈ T.ent (i, j), ∀ w ∈ T.ent (i, j + 1), v ≤ w
  col : ∀ i j, ∀ v ∈ T.ent (i, j), ∀ w ∈ T.ent (i + 1, j), v < w

theorem ent_of_get? {T : Tab} {b : Nat × Nat} {s : List Int} (h : T.get? b = some s) : T.ent b = s := by
  rw [ent, h]; rfl

theorem ent_nil_of_none {T : Tab} {b : Nat × Nat} (h : T.get? b = none) : T.ent b = [] := by
  rw [ent, h]; rfl

theorem Base.mem_D {m : Bool} {D : Set (Nat × Nat)} {T : Tab} (h : Base m D T) {b : Nat × Nat} {v : Int} (hv : v ∈ T.ent b) :
    b ∈ D := by
  rw [← h.shape]
  rw [ent] at hv
  cases hb : T.get? b with
  | none => rw [hb] at hv; simp at hv
  | some s => rfl

theorem Base.get? {m : Bool} {D : Set (Nat × Nat)} {T : Tab} (h : Base m D T) {b : Nat × Nat} (hb : b ∈ D) :
    T.get? b = some (T.ent b) := by
  rw [← h.shape, Option.isSome_iff_exists] at hb
  obtain ⟨s, hs⟩ := hb
  rw [ent, hs]; rfl

theorem Base.get?_none {m : Bool} {D : Set (Nat × Nat)} {T : Tab} (h : Base m D T) {b : Nat × Nat} (hb : b ∉ D) :
    T.get? b = none := by
  rw [← h.shape] at hb
  simpa using hb

theorem Base.ext {m : Bool} {D : Set (Nat × Nat)} {T U : Tab} (h : Base m D T) (h' : Base m D U) (he : ∀ b ∈ D, T.ent b = U.ent b) :
    T = U := by
  apply ext_get?
  intro b
  by_cases hb : b ∈ D
  · rw [h.get? hb, h'.get? hb, he b hb]
  · rw [h.get?_none hb, h'.get?_none hb]

theorem Base.ext_mem {D : Set (Nat × Nat)} {T U : Tab} (h : Base false D T) (h' : Base false D U)
    (he : ∀ b v, v ∈ T.ent b ↔ v ∈ U.ent b) : T = U :=
  h.ext h' (fun b _ => Verif.Insertion.sorted_ext (h.strict rfl b) (h'.strict rfl b) (he b))

theorem semi_of_spec {m : Bool} {n : Nat} {D : Set (Nat × Nat)} {T : Tab}
    (h : IsMultiTableauOf m D (IsSemistandard n D) T.get?) : Semi m n D T := by
  obtain ⟨h1, h2, h3⟩ := h
  have hget : ∀ b ∈ D, T.get? b = some (T.ent b) := by
    intro b hb
    rw [← h1, Option.isSome_iff_exists] at hb
    obtain ⟨s, hs⟩ := hb
    rw [ent, hs]; rfl
  have hnone : ∀ b, b ∉ D → T.ent b = [] := by
    intro b hb
    rw [← h1] at hb
    apply ent_nil_of_none
    simpa using hb
  have hne : ∀ b ∈ D, T.ent b ≠ [] := fun b hb => (h2 b _ (hget b hb)).1
  have hmem : ∀ b, ∀ v ∈ T.ent b, b ∈ D := by
    intro b v hv
    by_contra hb
    rw [hnone b hb] at hv
    simp at hv
  -- a choice with prescribed values at two boxes
  have hch : ∀ b c : Nat × Nat, b ≠ c → ∀ v ∈ T.ent b, ∀ w ∈ T.ent c, ∃ f : Nat × Nat → Int,
      IsSemistandard n D f ∧ f b = v ∧ f c = w := by
    intro b c hbc v hv w hw
    refine ⟨fun d => if d = b then v else if d = c then w else (T.ent d).headD 0, h3 _ ?_, by simp, ?_⟩
    · intro d s hd
      have hds : T.ent d = s := ent_of_get? hd
      split
      · rename_i h; subst h; rwa [← hds]
      · split
        · rename_i h; subst h; rwa [← hds]
        · have : s ≠ [] := (h2 d s hd).1
          rw [hds]
          cases s with
          | nil => exact absurd rfl this
          | cons a s => simp
    · simp [Ne.symm hbc]
  refine ⟨⟨h1, hne, ?_, ?_⟩, ?_, ?_, ?_⟩
  · intro b
    by_cases hb : b ∈ D
    · exact (h2 b _ (hget b hb)).2.1
    · rw [hnone b hb]; simp
  · intro hm b
    by_cases hb : b ∈ D
    · exact (h2 b _ (hget b hb)).2.2 hm
    · rw [hnone b hb]; simp
  · intro b v hv
    have hb := hmem b v hv
    have : IsSemistandard n D (fun d => if d = b then v else (T.ent d).headD 0) := by
      apply h3
      intro d s hd
      have hds : T.ent d = s := ent_of_get? hd
      split
      · rename_i h; subst h; rwa [← hds]
      · have : s ≠ [] := (h2 d s hd).1
        rw [hds]
        cases s with
        | nil => exact absurd rfl this
        | cons a s => simp
    have := this.1 b hb
    simpa using this
  · intro i j v hv w hw
    obtain ⟨f, hf, e1, e2⟩ := hch (i, j) (i, j + 1) (by simp) v hv w hw
    have := hf.2.1 i j (hmem _ _ hv) (hmem _ _ hw)
    rwa [e1, e2] at this
  · intro i j v hv w hw
    obtain ⟨f, hf, e1, e2⟩ := hch (i, j) (i + 1, j) (by simp) v hv w hw
    have := hf.2.2 i j (hmem _ _ hv) (hmem _ _ hw)
    rwa [e1, e2] at this

theorem Semi.spec {m : Bool} {n : Nat} {D : Set (Nat × Nat)} {T : Tab} (h : Semi m n D T) :
    IsMultiTableauOf m D (IsSemistandard n D) T.get? := by
  refine ⟨h.shape, ?_, ?_⟩
  · intro b s hs
    have hb : b ∈ D := by rw [← h.shape, hs]; rfl
    have e := ent_of_get? hs
    rw [← e]
    exact ⟨h.ne b hb, h.srt b, fun hm => h.strict hm b⟩
  · intro f hf
    have hfe : ∀ b ∈ D, f b ∈ T.ent b := fun b hb => hf b _ (h.toBase.get? hb)
    exact ⟨fun b hb => h.bd b _ (hfe b hb), fun i j h1 h2 => h.row i j _ (hfe _ h1) _ (hfe _ h2),
      fun i j h1 h2 => h.col i j _ (hfe _ h1) _ (hfe _ h2)⟩

theorem semi_iff {m : Bool} {n : Nat} {D : Set (Nat × Nat)} {T : Tab} :
    IsMultiTableauOf m D (IsSemistandard n D) T.get? ↔ Semi m n D T := ⟨semi_of_spec, Semi.spec⟩

/-- A set of boxes with all boxes between two of its boxes. -/
def Convex (D : Set (Nat × Nat)) : Prop :=
  ∀ i j i' j' k l, (i, j) ∈ D → (i', j') ∈ D → i ≤ k → k ≤ i' → j ≤ l → l ≤ j' → (k, l) ∈ D

theorem Semi.colLt {m : Bool} {n : Nat} {D : Set (Nat × Nat)} {T : Tab} (h : Semi m n D T) (hD : Convex D) {i i' j : Nat}
    (hi : i < i') {v w : Int} (hv : v ∈ T.ent (i, j)) (hw : w ∈ T.ent (i', j)) : v + (i' - i : Nat) ≤ w := by
  obtain ⟨d, rfl⟩ : ∃ d, i' = i + 1 + d := ⟨i' - i - 1, by omega⟩
  clear hi
  induction d generalizing w with
  | zero => have := h.col i j v hv w hw; omega
  | succ d ih =>
    have hb : (i + 1 + d, j) ∈ D :=
      hD i j (i + 1 + (d + 1)) j _ _ (h.toBase.mem_D hv) (h.toBase.mem_D hw) (by omega) (by omega) le_rfl le_rfl
    obtain ⟨z, hz⟩ := List.exists_mem_of_ne_nil _ (h.ne _ hb)
    have h1 := ih hz
    have h2 := h.col _ _ z hz w hw
    omega

theorem Semi.rowLe {m : Bool} {n : Nat} {D : Set (Nat × Nat)} {T : Tab} (h : Semi m n D T) (hD : Convex D) {i j j' : Nat}
    (hj : j < j') {v w : Int} (hv : v ∈ T.ent (i, j)) (hw : w ∈ T.ent (i, j')) : v ≤ w := by
  obtain ⟨d, rfl⟩ : ∃ d, j' = j + 1 + d := ⟨j' - j - 1, by omega⟩
  clear hj
  induction d generalizing w with
  | zero => exact h.row i j v hv w hw
  | succ d ih =>
    have hb : (i, j + 1 + d) ∈ D :=
      hD i j i (j + 1 + (d + 1)) _ _ (h.toBase.mem_D hv) (h.toBase.mem_D hw) le_rfl le_rfl (by omega) (by omega)
    obtain ⟨z, hz⟩ := List.exists_mem_of_ne_nil _ (h.ne _ hb)
    have h1 := ih hz
    have h2 := h.row _ _ z hz w hw
    omega

theorem take_idxOf_drop (s : List Int) (v : Int) : s.take (s.idxOf v) ++ s.drop (s.idxOf v + 1) = s.erase v := by
  rw [← List.eraseIdx_eq_take_drop_succ, List.eraseIdx_idxOf_eq_erase]

theorem sortInts_perm' (l : List Int) : (sortInts l).Perm l := List.perm_insertionSort _ l

theorem sortInts_sorted (l : List Int) : (sortInts l).Pairwise (· ≤ ·) := List.pairwise_insertionSort _ l

theorem ent_add (T : Tab) (b c : Nat × Nat) (v : Int) :
    (T.add b v).ent c = if c = b then sortInts (T.ent b ++ [v]) else T.ent c := by
  rw [ent, get?_add]
  split
  · rename_i h
    cases hb : T.get? b with
    | none => simp [ent, hb, sortInts]
    | some s => simp [ent, hb]
  · rfl

theorem ent_set (T : Tab) (b c : Nat × Nat) (s : List Int) : (T.set b s).ent c = if c = b then s else T.ent c := by
  rw [ent, get?_set]
  split <;> rfl

theorem ent_del (T : Tab) (b c : Nat × Nat) : (T.del b).ent c = if c = b then [] else T.ent c := by
  rw [ent, get?_del]
  split <;> rfl

theorem removeVal?_spec {T : Tab} {b : Nat × Nat} {v : Int} (hv : v ∈ T.ent b) :
    ∃ U, T.removeVal? b v = some U ∧ (∀ c, U.ent c = if c = b then (T.ent b).erase v else T.ent c) ∧
      (∀ c, (U.get? c).isSome = if c = b then decide ((T.ent b).erase v ≠ []) else (T.get? c).isSome) := by
  cases hb : T.get? b with
  | none => rw [ent_nil_of_none hb] at hv; simp at hv
  | some s =>
    have hs : T.ent b = s := ent_of_get? hb
    rw [hs] at hv
    rw [removeVal?, hb]
    simp only [if_pos hv, take_idxOf_drop, hs]
    split
    · rename_i h0
      rw [List.length_eq_zero_iff] at h0
      refine ⟨_, rfl, ?_, ?_⟩
      · intro c; rw [ent_del, h0]
      · intro c; rw [get?_del, h0]; split <;> simp
    · rename_i h0
      rw [List.length_eq_zero_iff] at h0
      refine ⟨_, rfl, ?_, ?_⟩
      · intro c; rw [ent_set]
      · intro c; rw [get?_set]; split
        · simp [h0]
        · rfl

theorem isSome_add (T : Tab) (b c : Nat × Nat) (v : Int) :
    ((T.add b v).get? c).isSome = (decide (c = b) || (T.get? c).isSome) := by
  rw [get?_add]
  by_cases h : c = b
  · rw [if_pos h]; cases T.get? b <;> simp [h]
  · rw [if_neg h]; simp [h]

/-- Removing `v` from box `b` and adding `w` to box `c`. -/
theorem move_spec {D : Set (Nat × Nat)} {T : Tab} (h : Base false D T) {b c : Nat × Nat} {v w : Int} (hv : v ∈ T.ent b) (hc : c ∈ D)
    (hw : w ∉ T.ent c) (hbc : b = c ∨ ∃ v' ∈ T.ent b, v' ≠ v) :
    ∃ U0, T.removeVal? b v = some U0 ∧ Base false D (U0.add c w) ∧
      (∀ d z, z ∈ (U0.add c w).ent d ↔ (z ∈ T.ent d ∧ ¬ (d = b ∧ z = v)) ∨ (d = c ∧ z = w)) := by
  obtain ⟨U, hU, he, hsome⟩ := removeVal?_spec hv
  have hnd : ∀ d, (T.ent d).Nodup := fun d => (h.strict rfl d).imp (fun h => ne_of_lt h)
  have hmem : ∀ d z, z ∈ (U.add c w).ent d ↔ (z ∈ T.ent d ∧ ¬ (d = b ∧ z = v)) ∨ (d = c ∧ z = w) := by
    intro d z
    have hUe : z ∈ U.ent d ↔ (z ∈ T.ent d ∧ ¬ (d = b ∧ z = v)) := by
      rw [he]
      split
      · rename_i hd; subst hd
        rw [(hnd d).mem_erase_iff]
        tauto
      · rename_i hd; simp [hd]
    rw [ent_add]
    split
    · rename_i hd; subst hd
      rw [(sortInts_perm' _).mem_iff, List.mem_append, hUe, List.mem_singleton]
      tauto
    · rename_i hd; rw [hUe]; simp [hd]
  refine ⟨U, hU, ⟨?_, ?_, ?_, ?_⟩, hmem⟩
  · intro d
    rw [isSome_add, hsome]
    by_cases hd : d = c
    · subst hd; simp [hc]
    · simp only [hd, decide_false, Bool.false_or]
      split
      · rename_i hdb
        subst hdb
        obtain ⟨v', hv', hne⟩ := hbc.resolve_left hd
        have : (T.ent d).erase v ≠ [] := by
          intro h0
          have := ((hnd d).mem_erase_iff).2 ⟨hne, hv'⟩
          rw [h0] at this; simp at this
        simp [this, h.mem_D hv]
      · rw [h.shape]
  · intro d hd
    have : ∃ z, z ∈ (U.add c w).ent d := by
      by_cases h1 : d = c
      · exact ⟨w, (hmem d w).2 (Or.inr ⟨h1, rfl⟩)⟩
      · by_cases h2 : d = b
        · subst h2
          obtain ⟨v', hv', hne⟩ := hbc.resolve_left h1
          exact ⟨v', (hmem d v').2 (Or.inl ⟨hv', fun hh => hne hh.2⟩)⟩
        · obtain ⟨z, hz⟩ := List.exists_mem_of_ne_nil _ (h.ne d hd)
          exact ⟨z, (hmem d z).2 (Or.inl ⟨hz, fun hh => h2 hh.1⟩)⟩
    obtain ⟨z, hz⟩ := this
    exact List.ne_nil_of_mem hz
  · intro d
    rw [ent_add]
    split
    · exact sortInts_sorted _
    · rw [he]
      split
      · rename_i hd; exact (h.srt b).sublist List.erase_sublist
      · exact h.srt d
  · intro _ d
    rw [ent_add]
    split
    · rename_i hd; subst hd
      have hn : (U.ent d ++ [w]).Nodup := by
        rw [List.nodup_append]
        refine ⟨?_, by simp, ?_⟩
        · rw [he]; split
          · exact (hnd b).erase v
          · exact hnd d
        · intro a ha a' ha'
          rw [List.mem_singleton] at ha'
          subst ha'
          rintro rfl
          apply hw
          rw [he] at ha
          split at ha
          · rename_i h'; subst h'; exact List.mem_of_mem_erase ha
          · exact ha
      have h1 := sortInts_sorted (U.ent d ++ [w])
      have h2 : (sortInts (U.ent d ++ [w])).Nodup := (sortInts_perm' _).nodup_iff.2 hn
      rw [List.Nodup] at h2
      exact (h1.and h2).imp (fun h => lt_of_le_of_ne h.1 h.2)
    · rw [he]
      split
      · exact (h.strict rfl b).sublist List.erase_sublist
      · exact h.strict rfl d

end Verif.Tab
