import Verif.Lemmas.InsertionSurj
import Verif.Props.InsertionTableaux

/-! Property C88: Hecke insertion is onto, and `inverse_hecke` computes its inverse (insertion.py). -/

namespace Verif.Insertion

open Tab Verif.Part

attribute [-simp] List.getD_eq_getElem?_getD

theorem inc_of_diagram {mu : List Nat} (hmu : IsPartition mu) {P : Tab} {g : Nat × Nat → Int}
    (h1 : ∀ b ∈ Diagram mu, P.get? b = some [g b] ∧ 0 < g b) (h2 : ∀ b ∉ Diagram mu, P.get? b = none)
    (h3 : IsIncreasing (Diagram mu) g) : Inc P (fun i => mu.getD (i - 1) 0) (fun i j => g (i, j)) := by
  have hm : ∀ i j, (i, j) ∈ Diagram mu ↔ 1 ≤ i ∧ 1 ≤ j ∧ j ≤ mu.getD (i - 1) 0 := fun i j => Partition.mem_diagram
  have hanti : ∀ i, 1 ≤ i → mu.getD (i + 1 - 1) 0 ≤ mu.getD (i - 1) 0 := fun i hi =>
    Partition.getD_antitone hmu.1 (by omega)
  constructor
  · intro i j
    by_cases hb : (i, j) ∈ Diagram mu
    · rw [(h1 _ hb).1, if_pos ((hm i j).1 hb)]
    · rw [h2 _ hb, if_neg (fun hc => hb ((hm i j).2 hc))]
  · exact hanti
  · intro i j a b c
    exact h3.1 i j ((hm _ _).2 ⟨a, b, by omega⟩) ((hm _ _).2 ⟨a, by omega, c⟩)
  · intro i j a b c
    exact h3.2 i j ((hm _ _).2 ⟨a, b, le_trans c (hanti i a)⟩) ((hm _ _).2 ⟨by omega, b, c⟩)
  · intro i j a b c
    exact (h1 _ ((hm i j).2 ⟨a, b, c⟩)).2

theorem semi_of_diagram {mu : List Nat} (hmu : IsPartition mu) {Q : Tab} {m : Bool} {n : Nat}
    (hQ : IsMultiTableauOf m (Diagram mu) (IsSemistandard n (Diagram mu)) Q.get?) :
    Semi Q (fun i => mu.getD (i - 1) 0) ∧ (∀ b x, x ∈ Q.ent b → x ≤ n) := by
  obtain ⟨h1, h2, h3⟩ := hQ
  have hm : ∀ i j, (i, j) ∈ Diagram mu ↔ 1 ≤ i ∧ 1 ≤ j ∧ j ≤ mu.getD (i - 1) 0 := fun i j => Partition.mem_diagram
  have hent : ∀ b s, Q.get? b = some s → Q.ent b = s := fun b s h => by rw [ent, h]; rfl
  have hD : ∀ b x, x ∈ Q.ent b → b ∈ Diagram mu := fun b x hx => (h1 b).1 (by
    have := has_of_mem_ent hx; rw [has] at this; exact this)
  -- a choice of entries through two given boxes
  have choice : ∀ b x b' x', x ∈ Q.ent b → x' ∈ Q.ent b' → b ≠ b' →
      ∃ g, IsSemistandard n (Diagram mu) g ∧ g b = x ∧ g b' = x' := by
    intro b x b' x' hx hx' hne
    refine ⟨fun c => if c = b then x else if c = b' then x' else (Q.ent c).headD 0, h3 _ ?_, by simp, by simp [hne.symm]⟩
    intro c s hs
    split
    · rename_i hc; rw [hc] at hs; rw [← hent _ _ hs]; exact hx
    · split
      · rename_i hc; rw [hc] at hs; rw [← hent _ _ hs]; exact hx'
      · rw [hent _ _ hs]
        obtain ⟨y, s', rfl⟩ := List.exists_cons_of_ne_nil (h2 c s hs).1
        simp
  have choice1 : ∀ b x, x ∈ Q.ent b → ∃ g, IsSemistandard n (Diagram mu) g ∧ g b = x := by
    intro b x hx
    refine ⟨fun c => if c = b then x else (Q.ent c).headD 0, h3 _ ?_, by simp⟩
    intro c s hs
    split
    · rename_i hc; rw [hc] at hs; rw [← hent _ _ hs]; exact hx
    · rw [hent _ _ hs]
      obtain ⟨y, s', rfl⟩ := List.exists_cons_of_ne_nil (h2 c s hs).1
      simp
  refine ⟨⟨?_, fun i hi => Partition.getD_antitone hmu.1 (by omega), ?_, fun b s hs => (h2 b s hs).1, ?_, ?_, ?_⟩, ?_⟩
  · intro i j; rw [has, ← hm, ← h1]
  · intro b
    rw [ent]
    cases hg : Q.get? b with
    | none => simp
    | some s => exact (h2 b s hg).2.1
  · intro b x hx
    obtain ⟨g, hg, rfl⟩ := choice1 b x hx
    have := (hg.1 b (hD b _ hx)).1
    omega
  · intro i j x y hx hy
    obtain ⟨g, hg, rfl, rfl⟩ := choice _ _ _ _ hx hy (by simp)
    exact hg.2.1 i j (hD _ _ hx) (hD _ _ hy)
  · intro i j x y hx hy
    obtain ⟨g, hg, rfl, rfl⟩ := choice _ _ _ _ hx hy (by simp)
    exact hg.2.2 i j (hD _ _ hx) (hD _ _ hy)
  · intro b x hx
    obtain ⟨g, hg, rfl⟩ := choice1 b x hx
    exact (hg.1 b (hD b _ hx)).2

theorem std_box {Q : Tab} {β β' : Nat → Nat × Nat} {N : Nat} (h : Std Q β N) (h' : Std Q β' N) {k : Nat} (hk : k < N) : β k = β' k := by
  have h1 : (k : Int) + 1 ∈ Q.ent (β k) := by rw [h.ent, mem_boxNums]; exact ⟨k, hk, rfl, rfl⟩
  rw [h'.ent, mem_boxNums] at h1
  obtain ⟨k', _, e, e'⟩ := h1
  have : k = k' := by omega
  rw [← e, this]

theorem compat_congr {β β' : Nat → Nat × Nat} {g : Nat → Int} {N : Nat} (h : ∀ k, k < N → β k = β' k) (hc : Compat β g N) :
    Compat β' g N := by
  refine ⟨hc.1, fun k k' h1 h2 => ?_⟩
  rw [← h k (by omega), ← h k' h2]
  exact hc.2 k k' h1 h2

theorem isRecord_of {w rec : List Int} {m : Bool} (hlen : w.length = rec.length)
    (h : ∀ i, i + 1 < w.length → rec.getD i 0 ≤ rec.getD (i + 1) 0 ∧
      ((if m then w.getD (i + 1) 0 < w.getD i 0 else w.getD i 0 ≤ w.getD (i + 1) 0) → rec.getD i 0 < rec.getD (i + 1) 0)) :
    IsRecord w rec m := by
  refine ⟨hlen, fun i a b x y ha hb hx hy => ?_⟩
  have hget : ∀ (l : List Int) i a, l[i]? = some a → l.getD i 0 = a := by
    intro l i a h; rw [List.getD_eq_getElem?_getD, h]; rfl
  have hi : i + 1 < w.length := by
    by_contra hn
    rw [List.getElem?_eq_none (by omega)] at hb
    cases hb
  have := h i hi
  rwa [hget _ _ _ ha, hget _ _ _ hb, hget _ _ _ hx, hget _ _ _ hy] at this

/-- C88: for every partition shape, every increasing tableau `P` with positive entries and every semistandard tableau `Q` of that
shape with entries in `1..n` (multiset-valued in the first version, set-valued in the second), `inverse_hecke(P, Q)` returns a word
in positive integers and an admissible record in `1..n`, and Hecke insertion of these gives `(P, Q)` back. -/
theorem C88_onto {C : HCache} (hC : Sound C) (m : Bool) (n : Nat) {mu : List Nat} (hmu : IsPartition mu) {P Q : Tab}
    {g : Nat × Nat → Int} (hP : ∀ b ∈ Diagram mu, P.get? b = some [g b] ∧ 0 < g b) (hP' : ∀ b ∉ Diagram mu, P.get? b = none)
    (hg : IsIncreasing (Diagram mu) g) (hQ : IsMultiTableauOf m (Diagram mu) (IsSemistandard n (Diagram mu)) Q.get?) :
    ∃ w rec, inverseHecke P Q m = some (w, rec) ∧ (∀ a ∈ w, 0 < a) ∧ (∀ x ∈ rec, 0 < x ∧ x ≤ n) ∧ IsRecord w rec m ∧
      (hecke C w (some rec) m).1 = some (P, Q) := by
  obtain ⟨hsemi, hn⟩ := semi_of_diagram hmu hQ
  obtain ⟨rec, β, hstd, hqinv, hcompat, hQS, hmem, hdist⟩ := hsemi.standardize
  have e : ∀ k : Nat, ((k : Int) + 1).toNat - 1 = k := by intro k; omega
  have hrec : ∀ x ∈ rec, 0 < x ∧ x ≤ n := by
    intro x hx
    obtain ⟨k, hk, rfl⟩ := List.mem_iff_getElem.1 hx
    have := hmem k hk
    rw [List.getD_eq_getElem _ _ hk] at this
    exact ⟨hsemi.pos _ _ this, hn _ _ this⟩
  have hle : ∀ k, k + 1 < rec.length → rec.getD k 0 ≤ rec.getD (k + 1) 0 := by
    intro k hk
    have := hcompat.2 k (k + 1) (by omega) hk
    simp only [e] at this
    omega
  suffices h : ∃ w, (∀ a ∈ w, 0 < a) ∧ IsRecord w rec m ∧ (hecke C w (some rec) m).1 = some (P, Q) by
    obtain ⟨w, h1, h2, h3⟩ := h
    obtain ⟨p, q, h4, h5⟩ := (C42_round_trip hC w rec m h1 (fun x hx => (hrec x hx).1)).1 h2
    rw [h3] at h4
    cases h4
    exact ⟨w, rec, h5, h1, hrec, h2, h3⟩
  cases m with
  | true =>
    have hinc := inc_of_diagram hmu hP hP' hg
    obtain ⟨w, lam, f, β', hlen, hw, hd⟩ := word_exists _ ⟨_, _, hinc, hqinv⟩
    have hbox : ∀ k, k < rec.length → β k = β' k := fun k hk => std_box hstd (by rw [← hlen]; exact hd.std) hk
    have hmem' : ∀ k, k < rec.length → (k : Int) + 1 ∈ Q.standardize.ent ((β k).1, (β k).2) := fun k hk => by
      rw [hstd.ent, mem_boxNums]; exact ⟨k, hk, rfl, rfl⟩
    have hR : IsRecord w rec true := by
      refine isRecord_of hlen (fun i hi => ⟨hle i (by omega), fun hlt => ?_⟩)
      simp only [if_true] at hlt
      have h1 := hd.gt i hi hlt
      rw [← hbox i (by omega), ← hbox (i + 1) (by omega)] at h1
      have h2 := hcompat.2 i (i + 1) (by omega) (by omega)
      simp only [e] at h2
      rcases h2 with h2 | ⟨_, h2 | h2⟩
      · exact h2
      · have m2 := hmem' (i + 1) (by omega)
        push_cast at m2
        exact (hqinv.not_se hsemi.anti (hmem' i (by omega)) m2 h1 h2).elim
      · rw [h2] at h1; omega
    refine ⟨w, hw, hR, ?_⟩
    have hi := insertAll_spec w hC Tab.empty Tab.empty
    rw [hd.run, ← insertionTableaux] at hi
    rw [hecke, (checkRecord_eq w rec true).1 hR]
    simp only
    rcases hins : insertionTableaux C w with ⟨o, C'⟩
    rw [hins] at hi
    simp only at hi
    rw [hi.1]
    simp only [if_true]
    rw [apply?_eq hd.std hlen.symm, Option.map_some]
    exact congrArg some (Prod.ext rfl hQS.symm)
  | false =>
    have hmu' := Partition.transpose_isPartition hmu
    have hD : ∀ i j, (i, j) ∈ Diagram (Partition.transpose mu) ↔ (j, i) ∈ Diagram mu := Partition.transpose_diagram hmu
    have hinc := inc_of_diagram (P := P.transpose) (g := fun b => g (b.2, b.1)) hmu'
      (by rintro ⟨i, j⟩ hb; rw [get?_transpose]; exact hP _ ((hD i j).1 hb))
      (by rintro ⟨i, j⟩ hb; rw [get?_transpose]; exact hP' _ (fun hc => hb ((hD i j).2 hc)))
      ⟨fun i j h1 h2 => hg.2 j i ((hD _ _).1 h1) ((hD _ _).1 h2), fun i j h1 h2 => hg.1 j i ((hD _ _).1 h1) ((hD _ _).1 h2)⟩
    have hqT := hqinv.transpose (lam' := fun i => (Partition.transpose mu).getD (i - 1) 0) (fun i j => by
      have := hD i j
      rw [Partition.mem_diagram, Partition.mem_diagram] at this
      exact this)
    obtain ⟨w, lam, f, β', hlen, hw, hd⟩ := word_exists _ ⟨_, _, hinc, hqT⟩
    have hbox : ∀ k, k < rec.length → ((β k).2, (β k).1) = β' k := fun k hk =>
      std_box hstd.transpose (by rw [← hlen]; exact hd.std) hk
    have hmem' : ∀ k, k < rec.length → (k : Int) + 1 ∈ Q.standardize.ent ((β k).1, (β k).2) := fun k hk => by
      rw [hstd.ent, mem_boxNums]; exact ⟨k, hk, rfl, rfl⟩
    have hR : IsRecord w rec false := by
      refine isRecord_of hlen (fun i hi => ⟨hle i (by omega), fun hlt => ?_⟩)
      simp only [Bool.false_eq_true, if_false] at hlt
      have h1 := hd.le i hi hlt
      rw [← hbox i (by omega), ← hbox (i + 1) (by omega)] at h1
      have h2 := hcompat.2 i (i + 1) (by omega) (by omega)
      simp only [e, Prod.mk.injEq] at h1 h2
      rcases h2 with h2 | ⟨heq, h2 | h2⟩
      · exact h2
      · have m2 := hmem' (i + 1) (by omega)
        push_cast at m2
        rcases h1 with h1 | h1
        · exact (hqinv.not_se hsemi.anti (hmem' i (by omega)) m2 h1 h2).elim
        · omega
      · refine absurd heq (hdist (β i) ?_ i (i + 1) (by omega) (by omega) rfl h2.symm)
        rw [ent]
        cases hgq : Q.get? (β i) with
        | none => simp
        | some s => exact ((hQ.2.1 _ _ hgq).2.2 rfl).imp (fun h => ne_of_lt h)
    refine ⟨w, hw, hR, ?_⟩
    have hi := insertAll_spec w hC Tab.empty Tab.empty
    rw [hd.run, ← insertionTableaux] at hi
    rw [hecke, (checkRecord_eq w rec false).1 hR]
    simp only
    rcases hins : insertionTableaux C w with ⟨o, C'⟩
    rw [hins] at hi
    simp only at hi
    rw [hi.1]
    simp only [Bool.false_eq_true, if_false]
    rw [apply?_eq hd.std.transpose hlen.symm, Option.map_some, transpose_transpose, transpose_transpose]
    exact congrArg some (Prod.ext rfl hQS.symm)

/-- Words in positive integers with an admissible record in `1..n`. -/
def recordedWords (m : Bool) (n : Nat) : Set (List Int × List Int) :=
  {x | (∀ a ∈ x.1, 0 < a) ∧ (∀ a ∈ x.2, 0 < a ∧ a ≤ n) ∧ IsRecord x.1 x.2 m}

/-- Pairs of an increasing tableau with positive entries and a semistandard tableau in `1..n` of the same partition shape. -/
def tableauPairs (m : Bool) (n : Nat) : Set (Tab × Tab) :=
  {x | ∃ mu g, IsPartition mu ∧ (∀ b ∈ Diagram mu, x.1.get? b = some [g b] ∧ 0 < g b) ∧ (∀ b ∉ Diagram mu, x.1.get? b = none) ∧
    IsIncreasing (Diagram mu) g ∧ IsMultiTableauOf m (Diagram mu) (IsSemistandard n (Diagram mu)) x.2.get?}

/-- C88: Hecke insertion is a bijection from the words with admissible records to the pairs of tableaux, and `inverse_hecke` is
the inverse bijection. -/
theorem C88_bijection {C : HCache} (hC : Sound C) (m : Bool) (n : Nat) :
    (∀ x ∈ recordedWords m n, ∃ y ∈ tableauPairs m n, (hecke C x.1 (some x.2) m).1 = some y ∧ inverseHecke y.1 y.2 m = some x) ∧
    (∀ y ∈ tableauPairs m n, ∃ x ∈ recordedWords m n, inverseHecke y.1 y.2 m = some x ∧ (hecke C x.1 (some x.2) m).1 = some y) := by
  constructor
  · rintro ⟨w, rec⟩ ⟨h1, h2, h3⟩
    obtain ⟨p, q, mu, g, e1, e2, e3, e4, e5, e6, -⟩ := C72_tableaux hC w rec m n h1 h2 h3
    obtain ⟨p', q', e7, e8⟩ := (C42_round_trip hC w rec m h1 (fun x hx => (h2 x hx).1)).1 h3
    rw [e1] at e7
    cases e7
    exact ⟨(p, q), ⟨mu, g, e2, e3, e4, e5, e6⟩, e1, e8⟩
  · rintro ⟨P, Q⟩ ⟨mu, g, h1, h2, h3, h4, h5⟩
    obtain ⟨w, rec, e1, e2, e3, e4, e5⟩ := C88_onto hC m n h1 h2 h3 h4 h5
    exact ⟨(w, rec), ⟨e2, e3, e4⟩, e1, e5⟩

-- a pair that was not obtained by insertion: shape (2, 1), with the multisets {1, 1}, {2, 4, 4}, {3}
example : inverseHecke ⟨[((1, 1), [2]), ((1, 2), [5]), ((2, 1), [3])], by decide⟩
    ⟨[((1, 1), [1, 1]), ((1, 2), [2, 4, 4]), ((2, 1), [3])], by decide⟩ true = some ([3, 3, 5, 2, 5, 5], [1, 1, 2, 3, 4, 4]) := by
  decide +kernel
example : inverseHecke ⟨[((1, 1), [2]), ((1, 2), [5]), ((2, 1), [3])], by decide⟩
    ⟨[((1, 1), [1, 2]), ((1, 2), [2, 4]), ((2, 1), [3])], by decide⟩ false = some ([5, 5, 2, 5, 3], [1, 2, 2, 3, 4]) := by
  decide +kernel

-- the hypotheses are met by a tableau of shape (2, 1)
example : ((⟨[((1, 1), [2]), ((1, 2), [5]), ((2, 1), [3])], by decide⟩ : Tab),
    (⟨[((1, 1), [1, 1]), ((1, 2), [2, 4, 4]), ((2, 1), [3])], by decide⟩ : Tab)) ∈ tableauPairs true 4 := by
  have hw : ([3, 3, 5, 2, 5, 5], [1, 1, 2, 3, 4, 4]) ∈ recordedWords true 4 :=
    ⟨by decide, by decide, by_contra fun h => by
      have := (checkRecord_eq _ _ _).2 h
      revert this
      decide⟩
  obtain ⟨y, hy, h1, -⟩ := (C88_bijection sound_empty true 4).1 _ hw
  rw [show (hecke Dict.empty [3, 3, 5, 2, 5, 5] (some [1, 1, 2, 3, 4, 4]) true).1 =
    some (⟨[((1, 1), [2]), ((1, 2), [5]), ((2, 1), [3])], by decide⟩,
      ⟨[((1, 1), [1, 1]), ((1, 2), [2, 4, 4]), ((2, 1), [3])], by decide⟩) by decide +kernel] at h1
  cases h1
  exact hy

end Verif.Insertion
