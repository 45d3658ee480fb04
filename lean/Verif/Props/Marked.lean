import Verif.Lemmas.MarkedPoly

/-! Properties C51, C52, C53: marked tableaux, their counts and their generating functions. -/

attribute [-simp] List.getD_eq_getElem?_getD

namespace Verif.Tableaux

open Tab Verif.Part Partition Symm

/-- C51: `Tableau.semistandard_marked(n, mu, nu)` (`sv = false`) and `semistandard_marked_setvalued` (`sv = true`) are the
sets of all (set-valued) marked tableaux of shape `mu/nu` with letters `1', 1, ..., n', n`; they are empty when `nu` is not
contained in `mu`. -/
theorem C51_semistandard_marked (sv : Bool) (n : Nat) {mu nu : List Nat} (hm : IsPartition mu) (hn : IsPartition nu)
    (T : Tab) : T ∈ semistandardMarked sv nu n mu ↔ Diagram nu ⊆ Diagram mu ∧
      IsTableauOf sv (Diagram mu \ Diagram nu) (IsMarked true n (Diagram mu \ Diagram nu)) T.get? := by
  rw [semistandardMarked_eq sv true, isTab_markedGen (sh := false) (fun _ => rfl) hn n hm, isTab_iff_marked]
  exact Iff.rfl

/-- C51: for strict partitions, `Tableau.semistandard_shifted_marked` and `semistandard_shifted_marked_setvalued` raise no
exception and return the sets of all (set-valued) shifted marked tableaux, without primes on the diagonal if
`diagonal_primes` is false. -/
theorem C51_semistandard_shifted_marked (dp sv : Bool) (n : Nat) {mu nu : List Nat} (hm : IsStrict mu) (hn : IsStrict nu) :
    ∃ S, semistandardShiftedMarked dp sv nu n mu = some S ∧ ∀ T, T ∈ S ↔ ShiftedDiagram nu ⊆ ShiftedDiagram mu ∧
      IsTableauOf sv (ShiftedDiagram mu \ ShiftedDiagram nu)
        (IsMarked dp n (ShiftedDiagram mu \ ShiftedDiagram nu)) T.get? := by
  refine ⟨_, semistandardShiftedMarked_eq hn n hm, fun T => ?_⟩
  rw [isTab_markedGen (sh := true) (by simp) hn n hm, isTab_iff_marked]
  exact Iff.rfl

/-- C51: a shape that is not strict raises an AssertionError. -/
theorem C51_not_strict (dp sv : Bool) (n : Nat) {mu nu : List Nat} (h : ¬ mu.Pairwise (· > ·)) :
    semistandardShiftedMarked dp sv nu n mu = none := by
  have : isStrictPartition mu = false := by
    rw [← Bool.not_eq_true, isStrictPartition_iff]
    exact h
  cases n <;> simp [semistandardShiftedMarked, this]

example : (semistandardMarked false [] 2 [2, 1]).card = 20 := by decide +kernel

example : (semistandardShiftedMarked false true [] 2 [2]).map Finset.card = some 9 := by decide +kernel

example : IsStrict [3, 1] ∧ IsStrict [2] ∧ ShiftedDiagram [2] ⊆ ShiftedDiagram [3, 1] := by
  refine ⟨by simp [IsStrict], by simp [IsStrict], ?_⟩
  rintro ⟨i, j⟩ ⟨h1, h2, h3⟩
  refine ⟨h1, h2, ?_⟩
  rcases i with _ | _ | _ | i <;> simp_all <;> omega

/-- C52: `weight(n)` of a (set-valued) marked tableau has, in place `i`, the number of letters `i + 1` and `(i + 1)'`. -/
theorem C52_weight (n : Nat) {T : Tab} (h : ∀ b s, T.get? b = some s → ∀ x ∈ s, 1 ≤ |x| ∧ |x| ≤ n) :
    (weight n T).length = n ∧ ∀ i < n, (weight n T).getD i 0 =
      T.entries.count ((i : Int) + 1) + T.entries.count (-((i : Int) + 1)) := by
  refine weight_spec (fun x hx => ?_)
  obtain ⟨b, hb⟩ := mem_entries.1 hx
  rw [ent] at hb
  cases hg : T.get? b with
  | none => rw [hg] at hb; simp at hb
  | some s =>
    rw [hg] at hb
    have := h b s hg x hb
    rw [Int.abs_eq_natAbs] at this
    omega

theorem count_marked {sh sv dp : Bool} (hdp : sh = false → dp = true) (n : Nat) {mu nu : List Nat} (hm : IsShape sh mu)
    (hn : IsShape sh nu) (alpha : List Nat) :
    (IsPartition alpha ∧ alpha.length ≤ n → (markedCount sh sv dp nu n mu).getD alpha 0 =
      ((markedGen sh sv dp nu n mu).filter (fun T => ∀ i < n, (weight n T).getD i 0 = alpha.getD i 0)).card) ∧
    (¬ (IsPartition alpha ∧ alpha.length ≤ n) → (markedCount sh sv dp nu n mu).getD alpha 0 = 0) := by
  rw [markedCount_weights hdp hn hm]
  constructor
  · intro ha
    rw [if_pos ha, wCount]
    congr 2
    refine Finset.filter_congr (fun T hT => forall₂_congr (fun i hi => ?_))
    rw [weight_eq_wtL ((isTab_markedGen hdp hn n hm).1 hT), getD_wtL _ _ _ hi]
  · intro ha
    rw [if_neg ha]

theorem symm_marked {sh sv dp : Bool} (hdp : sh = false → dp = true) (n : Nat) {mu nu : List Nat} (hm : IsShape sh mu)
    (hn : IsShape sh nu) {u v : List Nat} (hu : u.length = n) (hp : u.Perm v) :
    ((markedGen sh sv dp nu n mu).filter (fun T => weight n T = u)).card =
      ((markedGen sh sv dp nu n mu).filter (fun T => weight n T = v)).card := by
  have key : ∀ u : List Nat, u.length = n →
      (((markedGen sh sv dp nu n mu).filter (fun T => weight n T = u)).card : Int) =
      wCount (markedGen sh sv dp nu n mu) n markWeight (fun i => u.getD i 0) := by
    intro u hu
    rw [wCount_wtL _ _ _ hu]
    congr 2
    refine Finset.filter_congr (fun T hT => ?_)
    rw [weight_eq_wtL ((isTab_markedGen hdp hn n hm).1 hT)]
  have h1 := wCount_perm (marked_swapInvariant (sv := sv) hdp hn n hm) hp [] (by simpa using hu)
  simp only [List.nil_append] at h1
  have := (key u hu).trans (h1.trans (key v (by rw [← hp.length_eq, hu])).symm)
  exact_mod_cast this

/-- C52: for a partition `alpha` with at most `n` parts, the count under the key `alpha` in
`count_semistandard_marked(_setvalued)` is the number of tableaux of weight `alpha` (padded with zeros); all other keys have
the value 0. -/
theorem C52_count_marked (sv : Bool) (n : Nat) {mu nu : List Nat} (hm : IsPartition mu) (hn : IsPartition nu)
    (alpha : List Nat) :
    (IsPartition alpha ∧ alpha.length ≤ n → (countSemistandardMarked sv nu n mu).getD alpha 0 =
      ((semistandardMarked sv nu n mu).filter (fun T => ∀ i < n, (weight n T).getD i 0 = alpha.getD i 0)).card) ∧
    (¬ (IsPartition alpha ∧ alpha.length ≤ n) → (countSemistandardMarked sv nu n mu).getD alpha 0 = 0) := by
  rw [countSemistandardMarked_eq sv true, semistandardMarked_eq sv true]
  exact count_marked (sh := false) (fun _ => rfl) n hm hn alpha

/-- C52: the same for shifted tableaux; no exception is raised. -/
theorem C52_count_shifted_marked (dp sv : Bool) (n : Nat) {mu nu : List Nat} (hm : IsStrict mu) (hn : IsStrict nu) :
    ∃ d S, countSemistandardShiftedMarked dp sv nu n mu = some d ∧ semistandardShiftedMarked dp sv nu n mu = some S ∧
      ∀ alpha, (IsPartition alpha ∧ alpha.length ≤ n → d.getD alpha 0 =
        (S.filter (fun T => ∀ i < n, (weight n T).getD i 0 = alpha.getD i 0)).card) ∧
      (¬ (IsPartition alpha ∧ alpha.length ≤ n) → d.getD alpha 0 = 0) :=
  ⟨_, _, countSemistandardShiftedMarked_eq hn n hm, semistandardShiftedMarked_eq hn n hm,
    fun alpha => count_marked (sh := true) (by simp) n hm hn alpha⟩

/-- C52: the number of marked tableaux of a given weight does not depend on the order of the weight. -/
theorem C52_symmetric_marked (sv : Bool) (n : Nat) {mu nu : List Nat} (hm : IsPartition mu) (hn : IsPartition nu)
    {u v : List Nat} (hu : u.length = n) (hp : u.Perm v) :
    ((semistandardMarked sv nu n mu).filter (fun T => weight n T = u)).card =
      ((semistandardMarked sv nu n mu).filter (fun T => weight n T = v)).card := by
  rw [semistandardMarked_eq sv true]
  exact symm_marked (sh := false) (fun _ => rfl) n hm hn hu hp

/-- C52: the same for shifted marked tableaux, with or without primes on the diagonal. -/
theorem C52_symmetric_shifted_marked (dp sv : Bool) (n : Nat) {mu nu : List Nat} (hm : IsStrict mu) (hn : IsStrict nu)
    {u v : List Nat} (hu : u.length = n) (hp : u.Perm v) {S : Finset Tab}
    (hS : semistandardShiftedMarked dp sv nu n mu = some S) :
    (S.filter (fun T => weight n T = u)).card = (S.filter (fun T => weight n T = v)).card := by
  rw [semistandardShiftedMarked_eq hn n hm, Option.some_inj] at hS
  subst hS
  exact symm_marked (sh := true) (by simp) n hm hn hu hp

example : (countSemistandardShiftedMarked false true [] 2 [2]).map (fun d => [d.getD [2] 0, d.getD [1, 1] 0,
    d.getD [2, 1] 0, d.getD [2, 2] 0, d.getD [3] 0]) = some [1, 2, 2, 1, 0] := by decide +kernel

end Verif.Tableaux

namespace Verif.Symm

open Tableaux Verif.Part Partition

/-- C53: `schur_s(n, mu, nu)` is the generating function of the marked tableaux of shape `mu/nu`. -/
theorem C53_schur_s (n : Nat) {mu nu : List Nat} (hm : IsPartition mu) (hn : IsPartition nu) :
    ∃ f, schurS n mu nu = some f ∧ IsSym n f ∧ Vec.NoZero f ∧
      (polynomial Poly.x n f).den = tabSum 1 n (semistandardMarked false nu n mu) := by
  obtain ⟨f, h1, h2, h3, _, h5⟩ := vectorize_marked_one (sh := false) (dp := true) (fun _ => rfl) hn hm n
  exact ⟨f, by rw [schurS, countSemistandardMarked_eq false true]; exact h1, h2, h3, by
    rw [h5, semistandardMarked_eq false true]⟩

/-- C53: for strict partitions, `schur_q(n, mu, nu)` raises no exception and is the generating function of the shifted
marked tableaux of shape `mu/nu`. -/
theorem C53_schur_q (n : Nat) {mu nu : List Nat} (hm : IsStrict mu) (hn : IsStrict nu) :
    ∃ f S, schurQ n mu nu = some f ∧ IsSym n f ∧ Vec.NoZero f ∧
      semistandardShiftedMarked true false nu n mu = some S ∧ (polynomial Poly.x n f).den = tabSum 1 n S := by
  obtain ⟨f, h1, h2, h3, _, h5⟩ := vectorize_marked_one (sh := true) (dp := true) (by simp) hn hm n
  exact ⟨f, _, by rw [schurQ, countSemistandardShiftedMarked_eq hn n hm]; exact h1, h2, h3,
    semistandardShiftedMarked_eq hn n hm, h5⟩

/-- C53: `schur_p(n, mu, nu)` is the same without primes on the diagonal. -/
theorem C53_schur_p (n : Nat) {mu nu : List Nat} (hm : IsStrict mu) (hn : IsStrict nu) :
    ∃ f S, schurP n mu nu = some f ∧ IsSym n f ∧ Vec.NoZero f ∧
      semistandardShiftedMarked false false nu n mu = some S ∧ (polynomial Poly.x n f).den = tabSum 1 n S := by
  obtain ⟨f, h1, h2, h3, _, h5⟩ := vectorize_marked_one (sh := true) (dp := false) (by simp) hn hm n
  exact ⟨f, _, by rw [schurP, countSemistandardShiftedMarked_eq hn n hm]; exact h1, h2, h3,
    semistandardShiftedMarked_eq hn n hm, h5⟩

/-- C53: `stable_grothendieck_s(n, mu, nu, degree_bound)` is the generating function of the set-valued marked tableaux,
with a factor `β` for every entry beyond the first in its box; with a degree bound, of those with at most that many
entries. -/
theorem C53_stable_grothendieck_s (n : Nat) {mu nu : List Nat} (hm : IsPartition mu) (hn : IsPartition nu)
    (bound : Option Int) :
    ∃ f, stableGrothendieckS n mu nu bound = some f ∧ IsSym n f ∧ Vec.NoZero f ∧
      (polynomial Poly.x n f).den = tabSum (Laurent.xpow 0 1) n
        ((semistandardMarked true nu n mu).filter (fun T => ∀ b, bound = some b → (T.entries.length : Int) ≤ b)) := by
  obtain ⟨f, h1, h2, h3, _, h5⟩ := betaVectorize_marked (sh := false) (dp := true) (sv := true) (fun _ => rfl) hn hm n bound
  refine ⟨f, by rw [stableGrothendieckS, countSemistandardMarked_eq true true]; exact h1, h2, h3, ?_⟩
  rw [h5, semistandardMarked_eq true true]
  congr 1
  ext T
  rw [Finset.mem_filter, Finset.mem_filter]
  exact Iff.rfl

/-- C53: the same for `stable_grothendieck_q` and the shifted marked tableaux. -/
theorem C53_stable_grothendieck_q (n : Nat) {mu nu : List Nat} (hm : IsStrict mu) (hn : IsStrict nu)
    (bound : Option Int) :
    ∃ f S, stableGrothendieckQ n mu nu bound = some f ∧ IsSym n f ∧ Vec.NoZero f ∧
      semistandardShiftedMarked true true nu n mu = some S ∧ (polynomial Poly.x n f).den = tabSum (Laurent.xpow 0 1) n
        (S.filter (fun T => ∀ b, bound = some b → (T.entries.length : Int) ≤ b)) := by
  obtain ⟨f, h1, h2, h3, _, h5⟩ := betaVectorize_marked (sh := true) (dp := true) (sv := true) (by simp) hn hm n bound
  refine ⟨f, _, by rw [stableGrothendieckQ, countSemistandardShiftedMarked_eq hn n hm]; exact h1, h2, h3,
    semistandardShiftedMarked_eq hn n hm, ?_⟩
  rw [h5]
  congr 1
  ext T
  rw [Finset.mem_filter, Finset.mem_filter]
  exact Iff.rfl

/-- C53: the same for `stable_grothendieck_p` and the shifted marked tableaux without primes on the diagonal. -/
theorem C53_stable_grothendieck_p (n : Nat) {mu nu : List Nat} (hm : IsStrict mu) (hn : IsStrict nu)
    (bound : Option Int) :
    ∃ f S, stableGrothendieckP n mu nu bound = some f ∧ IsSym n f ∧ Vec.NoZero f ∧
      semistandardShiftedMarked false true nu n mu = some S ∧ (polynomial Poly.x n f).den = tabSum (Laurent.xpow 0 1) n
        (S.filter (fun T => ∀ b, bound = some b → (T.entries.length : Int) ≤ b)) := by
  obtain ⟨f, h1, h2, h3, _, h5⟩ := betaVectorize_marked (sh := true) (dp := false) (sv := true) (by simp) hn hm n bound
  refine ⟨f, _, by rw [stableGrothendieckP, countSemistandardShiftedMarked_eq hn n hm]; exact h1, h2, h3,
    semistandardShiftedMarked_eq hn n hm, ?_⟩
  rw [h5]
  congr 1
  ext T
  rw [Finset.mem_filter, Finset.mem_filter]
  exact Iff.rfl

theorem mn_spec {dp : Bool} (n : Nat) {mu nu : List Nat} (hm : IsStrict mu) (hn : IsStrict nu) :
    ∃ g, (betaVectorize n mu nu (markedCount true true dp nu n mu) none).bind negateBeta = some g ∧ IsSym n g ∧
      Vec.NoZero g ∧
      (∀ k, g.get k = ((markedCount true true dp nu n mu).getD k 0 : PolyVal) *
        (-PolyVal.mk Poly.beta) ^ (k.sum + nu.sum - mu.sum)) ∧
      (polynomial Poly.x n g).den = tabSum (-Laurent.xpow 0 1) n (markedGen true true dp nu n mu) := by
  obtain ⟨f, h1, h2, h3, h4, h5⟩ := betaVectorize_marked (sh := true) (dp := dp) (sv := true) (by simp) hn hm n none
  obtain ⟨g, g1, g2⟩ := negateBeta_marked (sh := true) (dp := dp) (sv := true) (by simp) hn hm n h2 (fun k => by
    rw [h4, if_pos (show within none k.sum from fun b hb => by simp at hb)])
  exact ⟨g, by rw [h1]; exact g1, g2⟩

/-- C53: `mn_stable_grothendieck_p(n, mu, nu)` is the same with `-β`. -/
theorem C53_mn_stable_grothendieck_p (n : Nat) {mu nu : List Nat} (hm : IsStrict mu) (hn : IsStrict nu) :
    ∃ f S, mnStableGrothendieckP n mu nu = some f ∧ IsSym n f ∧ Vec.NoZero f ∧
      semistandardShiftedMarked false true nu n mu = some S ∧
      (polynomial Poly.x n f).den = tabSum (-Laurent.xpow 0 1) n S := by
  obtain ⟨f, h1, h2, h3, _, h5⟩ := mn_spec (dp := false) n hm hn
  exact ⟨f, _, by
    rw [mnStableGrothendieckP, stableGrothendieckP, countSemistandardShiftedMarked_eq hn n hm]; exact h1, h2, h3,
    semistandardShiftedMarked_eq hn n hm, h5⟩

/-- C53: `mn_stable_grothendieck_q(n, mu, nu)` is the same with `-β`. -/
theorem C53_mn_stable_grothendieck_q (n : Nat) {mu nu : List Nat} (hm : IsStrict mu) (hn : IsStrict nu) :
    ∃ f S, mnStableGrothendieckQ n mu nu = some f ∧ IsSym n f ∧ Vec.NoZero f ∧
      semistandardShiftedMarked true true nu n mu = some S ∧
      (polynomial Poly.x n f).den = tabSum (-Laurent.xpow 0 1) n S := by
  obtain ⟨f, h1, h2, h3, _, h5⟩ := mn_spec (dp := true) n hm hn
  exact ⟨f, _, by
    rw [mnStableGrothendieckQ, stableGrothendieckQ, countSemistandardShiftedMarked_eq hn n hm]; exact h1, h2, h3,
    semistandardShiftedMarked_eq hn n hm, h5⟩

example : ((stableGrothendieckP 2 [2] [] none).map (fun f => [f.get [2], f.get [1, 1], f.get [2, 1], f.get [2, 2]])) =
    some [1, 2, 2 * PolyVal.mk Poly.beta, PolyVal.mk Poly.beta * PolyVal.mk Poly.beta] := by decide +kernel

end Verif.Symm
