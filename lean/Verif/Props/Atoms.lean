import Verif.Lemmas.AtomsCode
import Verif.Lemmas.InvGrassmannian

/-! Property C108: the atoms of an involution. -/

attribute [-simp] List.getD_eq_getElem?_getD

namespace Verif.Perm

open Verif.PermSpec

attribute [local irreducible] mul s inverse identity len mod act demazure SPerm.call sFun invStep

theorem atomLine_rank {w x : SPerm} (h : Atom x w) : x.rank ≤ w.rank := by
  induction hl : len x generalizing x w with
  | zero =>
    rw [len_eq_zero.1 hl, rank_identity]; omega
  | succ n ih =>
    obtain ⟨i, hi⟩ : ∃ i, Desc x.call i := by
      by_contra hc
      push Not at hc
      rw [eq_identity_of_no_desc hc, len_identity] at hl
      omega
    obtain ⟨y', h1, h2, rfl⟩ := h.down hi
    have hd : Desc (invStep y' i).call i := by
      by_contra hc
      obtain ⟨a, rfl, ha⟩ := h
      have h3 : fromInvolutionWord true (a ++ [i]) = some (invStep (invStep y' i) i) := by
        rw [fromInvolutionWord_concat, ha, Option.bind_some, if_neg (fun h => hc ((mem_rightDescents _ _).1 h.1))]
      have h4 := (atom_reduced h3).2
      have h5 := (atom_reduced ha).2
      rw [fromWord_concat, List.length_append, List.length_singleton] at h4
      have := len_mul_s_of_desc hi
      omega
    have h3 := ih h1 (by have := len_mul_s_of_desc hi; omega)
    have h4 : y'.rank ≤ (invStep y' i).rank := by
      have := rank_invStep hd
      rwa [invStep_invStep] at this
    have h5 := rank_of_desc hd
    have h6 : (mul (mul x (s i)) (s i)).rank ≤ max (mul x (s i)).rank (s i).rank := rank_mul_le
    rw [mul_s_s] at h6
    have := rank_s_le i
    omega

theorem rank_inverse_le (w : SPerm) : (inverse w).rank ≤ w.rank := by
  refine rank_le_of_fix (fun a ha => ?_)
  have := (call_odd w).out a (by omega)
  rw [← this, inverse_call, this]

/-- The lines of the code that are run through. -/
theorem atomLine_iff {w x : SPerm} : Atom x w ↔ ∃ l, l.length = w.rank ∧ AtomLine w l ∧ construct l = some (inverse x) := by
  constructor
  · intro h
    have h1 := atomLine_rank h
    have h2 := rank_inverse_le x
    have h3 : construct (line (inverse x).call w.rank) = some (inverse x) := construct_call (by omega)
    exact ⟨_, length_line _ _, ⟨_, h3, by rwa [inverse_inverse]⟩, h3⟩
  · rintro ⟨l, -, ⟨u, h1, h2⟩, h3⟩
    rw [h1] at h3; cases h3
    rwa [inverse_inverse] at h2

theorem involution_iff {w : SPerm} : w = inverse w ↔ ∀ a, w.call (w.call a) = a := by
  have := isInvolution_iff (w := w)
  rwa [isInvolution, decide_eq_true_eq] at this

/-- `get_atoms` lists the products of the involution words of `w`, and nothing else. -/
theorem C108_atoms {w : SPerm} (hw : isInvolution w = true) : ∃ K, ∀ fuel, K ≤ fuel →
    ∃ L, getAtoms fuel w = .ok L ∧ ∀ x, x ∈ L ↔ ∃ a, fromWord a = x ∧ fromInvolutionWord true a = some w := by
  have hy := isInvolution_iff.1 hw
  obtain ⟨m1, m2⟩ := minLine_atom hy
  obtain ⟨M, hM⟩ : ∃ M, ∀ l, AtomLine w l → l.length = w.rank → psi w.rank 1 l ≤ M :=
    ⟨_, fun l h1 h2 => (psi_le w.rank l 1 (fun v hv => by have := h1.bound v hv; omega)).trans (by rw [h2])⟩
  refine ⟨M + 2, fun fuel hf => ?_⟩
  obtain ⟨L, h1, h2⟩ := atomLevels_spec hM fuel [minLine w] (by simpa using ⟨m1, m2⟩) (by omega) (fun l _ => by omega)
  have hL : ∀ l, l ∈ L ↔ AtomLine w l ∧ l.length = w.rank := by
    intro l
    rw [h2]
    constructor
    · rintro ⟨l0, h3, h4⟩
      rw [List.mem_singleton] at h3
      subst h3
      induction h4 with
      | refl => exact ⟨m1, m2⟩
      | tail _ h6 ih => exact ⟨h6.atom ih.1, by rw [h6.length]; exact ih.2⟩
    · rintro ⟨h3, h4⟩
      exact ⟨_, by simp, atom_reach h3 h4⟩
  obtain ⟨rs, h3, h4⟩ := mapM_except (f := lineInverse) (l := L) (fun l hl => by
    obtain ⟨⟨u, hu, -⟩, -⟩ := (hL l).1 hl
    exact ⟨inverse u, by rw [lineInverse, hu]⟩)
  refine ⟨rs, ?_, fun x => ?_⟩
  · unfold getAtoms
    rw [if_pos (involution_iff.2 hy), minInvAtomOneline_eq, h1]
    exact h3
  · rw [h4]
    refine Iff.trans ?_ (atomLine_iff (w := w) (x := x)).symm
    constructor
    · rintro ⟨l, h5, h6⟩
      obtain ⟨h7, h8⟩ := (hL l).1 h5
      obtain ⟨u, hu, -⟩ := id h7
      rw [lineInverse, hu] at h6
      cases h6
      exact ⟨l, h8, h7, by rw [inverse_inverse]; exact hu⟩
    · rintro ⟨l, h5, h6, h7⟩
      exact ⟨l, (hL l).2 ⟨h6, h5⟩, by rw [lineInverse, h7]; simp only [inverse_inverse]⟩

/-- `get_min_atom` is one of the atoms. -/
theorem C108_min_atom {w : SPerm} (hw : isInvolution w = true) :
    ∃ x, getMinAtom? w = .ok x ∧ ∃ a, fromWord a = x ∧ fromInvolutionWord true a = some w := by
  have hy := isInvolution_iff.1 hw
  obtain ⟨⟨u, hu, ha⟩, -⟩ := minLine_atom hy
  refine ⟨inverse u, ?_, ha⟩
  unfold getMinAtom?
  rw [if_pos (involution_iff.2 hy), minInvAtomOneline_eq, hu]

/-- The atoms are the shortest `x` for which the Demazure product of the inverse of `x` and `x` is `w`. -/
theorem C108_demazure {w : SPerm} (hw : isInvolution w = true) : ∃ K, ∀ fuel, K ≤ fuel →
    ∃ L, getAtoms fuel w = .ok L ∧ L ≠ [] ∧
      ∀ x, x ∈ L ↔ mod (inverse x) x = w ∧ ∀ z, mod (inverse z) z = w → len x ≤ len z := by
  obtain ⟨K, hK⟩ := C108_atoms hw
  obtain ⟨x0, -, h0⟩ := C108_min_atom hw
  refine ⟨K, fun fuel hf => ?_⟩
  obtain ⟨L, h1, h2⟩ := hK fuel hf
  refine ⟨L, h1, List.ne_nil_of_mem ((h2 x0).2 h0), fun x => ?_⟩
  rw [h2]
  have hge : ∀ z, mod (inverse z) z = w → ilen2 w ≤ 2 * len z := by
    intro z hz
    obtain ⟨a, ha⟩ := exists_reduced z
    have hv : demazure (a.reverse ++ a) = w := by
      rw [demazure_append, demazure_reverse, demazure_of_reduced ha, hz]
    have := (palindrome_spec a).2.1
    rw [hv] at this
    rw [← ha.2]; exact this
  obtain ⟨d1, d2⟩ := (atom_iff (x := x0) (y := w)).1 h0
  refine Iff.trans (atom_iff (x := x) (y := w)) ⟨fun ⟨h3, h4⟩ => ⟨h3, fun z hz => ?_⟩, fun ⟨h3, h4⟩ => ⟨h3, ?_⟩⟩
  · have := hge z hz; omega
  · have := hge x h3
    have := h4 x0 d1
    omega

/-- `get_involution_words` lists the involution words. -/
theorem C108_involution_words {words : SPerm → List (List Nat)}
    (hwords : ∀ x a, a ∈ words x ↔ fromWord a = x ∧ a.length = len x) {w : SPerm} (hw : isInvolution w = true) : ∃ K, ∀ fuel, K ≤ fuel →
    ∃ L, getInvolutionWords words fuel w = .ok L ∧ ∀ a, a ∈ L ↔ fromInvolutionWord true a = some w := by
  obtain ⟨K, hK⟩ := C108_atoms hw
  refine ⟨K, fun fuel hf => ?_⟩
  obtain ⟨L, h1, h2⟩ := hK fuel hf
  refine ⟨L.flatMap words, by unfold getInvolutionWords; rw [h1]; rfl, fun a => ?_⟩
  rw [List.mem_flatMap]
  constructor
  · rintro ⟨x, h3, h4⟩
    exact atom_any ((h2 x).1 h3) ((hwords x a).1 h4)
  · intro h
    exact ⟨fromWord a, (h2 _).2 ⟨a, rfl, h⟩, (hwords _ a).2 ⟨rfl, (atom_reduced h).2⟩⟩

/-- For other permutations the assertions fail. -/
theorem C108_not_involution {w : SPerm} (hw : isInvolution w = false) (fuel : Nat) :
    getAtoms fuel w = .error .assertion ∧ getMinAtom? w = .error .assertion := by
  have : ¬ w = inverse w := by
    rw [isInvolution] at hw; simpa using hw
  unfold getAtoms getMinAtom?
  rw [if_neg this, if_neg this]
  exact ⟨rfl, rfl⟩

/-- The longest element of the group of signed permutations of three letters has four atoms. -/
example : ∃ w, construct [-1, -2, -3] = some w ∧ isInvolution w = true ∧
    (getAtoms 9 w).map (List.map SPerm.oneline) = .ok [[-3, -2, -1], [-3, 1, -2], [2, -3, -1], [-1, 2, -3]] :=
  ⟨_, rfl, by decide +kernel, by decide +kernel⟩

example : ∃ w, construct [4, 3, 2, 1] = some w ∧ isInvolution w = true ∧
    (getAtoms 9 w).map (List.map SPerm.oneline) = .ok [[2, 4, 3, 1], [3, 4, 1, 2], [4, 2, 1, 3]] :=
  ⟨_, rfl, by decide +kernel, by decide +kernel⟩

end Verif.Perm
