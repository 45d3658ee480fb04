import Verif.Props.LittleInv
import Verif.Props.LittleFpf
import Verif.Props.Atoms
import Verif.Model.LittleAtoms

/-! # C109: Little bumps of involution words for a pair of numbers -/

namespace Verif.Perm
open Verif.PermSpec
attribute [-simp] List.getD_eq_getElem?_getD
attribute [local irreducible] mul s inverse identity len mod act demazure SPerm.call sFun invStep

/-- Some involution word of `z` and some involution word of `y`, shorter by one, have products that differ by the transposition of the
positions `j` and `k`. -/
def LittleStep (j k : Nat) (y z : SPerm) : Prop := ∃ a b : List Nat, fromInvolutionWord true a = some z ∧ fromInvolutionWord true b = some y ∧
  b.length + 1 = a.length ∧ ∀ x : Int, (fromWord b).call x = (fromWord a).call
    (if x = j then k else if x = k then j else if x = -j then -k else if x = -k then -j else x)

theorem strict_ired {a : List Nat} {z : SPerm} (h : fromInvolutionWord true a = some z) : looseInvolution a = z ∧ IRed a := by
  obtain ⟨w, h1, h2, h3, h4⟩ := fromInvolutionWord_false a
  have h5 := h4 z h
  subst h5
  have h6 : looseInvolution a = z := by unfold looseInvolution; rw [h1]; rfl
  refine ⟨h6, ?_⟩
  unfold IRed
  rw [h6]
  have := (fromInvolutionWord_true h).2
  have := ilen2_even h2
  omega

theorem littleStep_iff {j k : Nat} (hj : 1 ≤ j) (hk : 1 ≤ k) {y z : SPerm} :
    LittleStep j k y z ↔ ∃ x, Atom x z ∧ Atom (mul x (reflectionT j k)) y ∧ len (mul x (reflectionT j k)) + 1 = len x := by
  have hcall : ∀ (x : SPerm) (i : Int), (mul x (reflectionT j k)).call i = x.call
    (if i = j then k else if i = k then j else if i = -j then -k else if i = -k then -j else i) := by
    intro x i
    rw [call_mul, call_reflectionT hj hk]; rfl
  constructor
  · rintro ⟨a, b, ha, hb, hl, h⟩
    have h1 : fromWord b = mul (fromWord a) (reflectionT j k) := ext_call (fun i => by rw [h, hcall])
    refine ⟨fromWord a, ⟨a, rfl, ha⟩, ⟨b, h1, hb⟩, ?_⟩
    rw [← h1, (atom_reduced ha).2.symm, (atom_reduced hb).2.symm, hl]
  · rintro ⟨x, ⟨a, rfl, ha⟩, ⟨b, hb, hb'⟩, hl⟩
    refine ⟨a, b, ha, hb', ?_, fun i => by rw [hb, hcall]⟩
    rw [← hb, (atom_reduced ha).2.symm, (atom_reduced hb').2.symm] at hl
    exact hl

theorem littleStep_le {j k : Nat} (hj : 1 ≤ j) (hk : 1 ≤ k) {y z : SPerm} (h : LittleStep j k y z) : isInvolution y = true ∧
    BruhatLE y z ∧ involutionLength y + 1 = involutionLength z := by
  obtain ⟨a, b, ha, hb, hl, h⟩ := h
  obtain ⟨rfl, ha2⟩ := strict_ired ha
  obtain ⟨rfl, hb2⟩ := strict_ired hb
  unfold IRed at ha2 hb2
  have hne : j ≠ k := by
    rintro rfl
    have h1 : fromWord b = fromWord a := ext_call (fun x => by
      rw [h]; congr 1; (repeat' split) <;> omega)
    have h2 := (atom_reduced ha).2
    have h3 := (atom_reduced hb).2
    rw [h1] at h3
    omega
  have hs : BruhatStep (fromWord b) (fromWord a) := by
    refine Adj.step (adj_of (a := (j : Int)) (b := (k : Int)) (by omega) (by omega) (by omega) ⟨?_, ?_, fun x h1 h2 => ?_⟩) ?_
    · rw [h]; congr 1; (repeat' split) <;> omega
    · rw [h]; congr 1; (repeat' split) <;> omega
    · rw [h]; congr 1; (repeat' split) <;> omega
    · rw [← (atom_reduced ha).2, ← (atom_reduced hb).2]; omega
  obtain ⟨i, hi, he⟩ := hs.exchange rfl
  have hb3 : fromInvolutionWord true (a.eraseIdx i) = some (looseInvolution b) := by
    refine atom_any ⟨b, rfl, hb⟩ ⟨he.symm, ?_⟩
    rw [List.length_eraseIdx_of_lt hi, ← (atom_reduced hb).2]; omega
  obtain ⟨h3, h4⟩ := strict_ired hb3
  refine ⟨isInvolution_iff.2 (loose_invol b), ?_, by omega⟩
  obtain ⟨P, c, S, rfl, hP, he2⟩ := split_at hi
  rw [he2] at h3 h4
  rw [← h3]
  exact le_insert P c S h4 ha2

/-- C109: `involution_little_bump(word, j, k)` for a reduced involution word of `z`, in whatever order the atoms of `z` are listed.  If
there is no involution `y` with an atom that comes from an atom of `z` by the transposition of `j` and `k`, and is shorter by one, the
word is returned.  Otherwise the call is `involution_little_bump(word, y)` for such a `y`, the loop stops, and the result is another
reduced involution word of the same length, with letters at least as large, of an involution that is again above `y`. -/
theorem C109_bump_at {word : List Nat} {z : SPerm} (hz : fromInvolutionWord false word = some z) (hw : involutionLength z = word.length)
    {order : List SPerm → List SPerm} (ho : ∀ l x, x ∈ order l ↔ x ∈ l) {j k : Nat} (hj : 1 ≤ j) (hk : 1 ≤ k) :
    ∃ D, ∀ depth, D ≤ depth →
      ((∃ y, LittleStep j k y z) → ∃ y N out z', LittleStep j k y z ∧ (∀ fuel, N ≤ fuel →
          involutionLittleBumpAt order depth fuel word j k = .ok out ∧ involutionLittleBump fuel word y = .ok out) ∧
        out.length = word.length ∧ fromInvolutionWord false out = some z' ∧ involutionLength z' = out.length ∧ BruhatLE y z' ∧
        (∀ i, word.getD i 0 ≤ out.getD i 0) ∧ out ≠ word) ∧
      ((∀ y, ¬ LittleStep j k y z) → ∀ fuel, involutionLittleBumpAt order depth fuel word j k = .ok word) := by
  have hz' : looseInvolution word = z := by rw [involution_value] at hz; exact Option.some.inj hz
  have hzi : isInvolution z = true := by rw [← hz']; exact isInvolution_iff.2 (loose_invol word)
  obtain ⟨D, hD⟩ := C108_atoms hzi
  refine ⟨D, fun depth hd => ?_⟩
  obtain ⟨X, hX1, hX2⟩ := hD depth hd
  obtain ⟨t, ht⟩ : ∃ t, reflectionT j k = t := ⟨_, rfl⟩
  have hun : ∀ fuel, involutionLittleBumpAt order depth fuel word j k =
      match (((order X).filter (fun x => decide ((len (mul x t) : Int) = (len x : Int) - 1))).map (fun x => mul x t)).filter
        (fun x => decide (involutionLength (mod (inverse x) x) = len x)) with
      | [] => .ok word
      | x :: _ => involutionLittleBump fuel word (mod (inverse x) x) := by
    intro fuel
    unfold involutionLittleBumpAt
    rw [hz']
    dsimp only
    rw [if_pos hw, hX1, ht]
    rfl
  have hmod : ∀ x, Invol (mod (inverse x) x) := by
    intro x
    obtain ⟨a, ha⟩ := exists_reduced x
    have : demazure (a.reverse ++ a) = mod (inverse x) x := by
      rw [demazure_append, demazure_reverse, demazure_of_reduced ha]
    rw [← this]
    exact isInvolution_iff.1 (C57_length.1 a)
  have hmem : ∀ u, u ∈ (((order X).filter (fun x => decide ((len (mul x t) : Int) = (len x : Int) - 1))).map (fun x => mul x t)).filter
        (fun x => decide (involutionLength (mod (inverse x) x) = len x)) ↔
      ∃ x, mul x t = u ∧ Atom x z ∧ Atom u (mod (inverse u) u) ∧ len u + 1 = len x := by
    intro u
    simp only [List.mem_filter, List.mem_map, decide_eq_true_eq, ho, hX2]
    have h5 := ilen2_even (hmod u)
    constructor
    · rintro ⟨⟨x, ⟨h1, h3⟩, rfl⟩, h4⟩
      exact ⟨x, rfl, h1, atom_iff.2 ⟨rfl, by omega⟩, by omega⟩
    · rintro ⟨x, rfl, h1, h2, h3⟩
      have := (atom_iff.1 h2).2
      exact ⟨⟨x, ⟨h1, by omega⟩, rfl⟩, by omega⟩
  have hstep : ∀ y, LittleStep j k y z ↔ ∃ x, Atom x z ∧ Atom (mul x t) y ∧ len (mul x t) + 1 = len x := by
    intro y
    rw [littleStep_iff hj hk, ht]
  cases hs : (((order X).filter (fun x => decide ((len (mul x t) : Int) = (len x : Int) - 1))).map (fun x => mul x t)).filter
        (fun x => decide (involutionLength (mod (inverse x) x) = len x)) with
  | nil =>
    rw [hs] at hmem hun
    refine ⟨fun ⟨y, hy⟩ => ?_, fun _ => hun⟩
    obtain ⟨x, h1, h2, h3⟩ := (hstep y).1 hy
    have h4 := (atom_iff.1 h2).1
    exact absurd ((hmem (mul x t)).2 ⟨x, rfl, h1, by rw [h4]; exact h2, h3⟩) (by simp)
  | cons u l =>
    rw [hs] at hmem hun
    obtain ⟨x, h1, h2, h3, h4⟩ := (hmem u).1 List.mem_cons_self
    subst h1
    have hst := (hstep _).2 ⟨x, h2, h3, h4⟩
    refine ⟨fun _ => ?_, fun h => absurd hst (h _)⟩
    obtain ⟨g1, g2, g3⟩ := littleStep_le hj hk hst
    obtain ⟨N, out, z', e1, e2⟩ := (C106_bump hz hw g1 (by omega)).1 g2
    exact ⟨_, N, out, z', hst, fun fuel hf => ⟨by rw [hun]; exact e1 fuel hf, e1 fuel hf⟩, e2⟩

/-- For the word 1, 2 of the involution with one-line notation 3, 2, 1. -/
example : involutionLength (looseInvolution [1, 2]) = 2 ∧ involutionLittleBumpAt id 20 20 [1, 2] 1 3 = .ok [2, 3] ∧
    involutionLittleBumpAt id 20 20 [2, 1, 3] 2 4 = .ok [3, 1, 4] ∧ involutionLittleBumpAt id 20 20 [2, 1, 3] 2 3 = .ok [2, 1, 3] := by
  decide +kernel

/-- C109: which atom is listed first matters.  The two atoms of the involution `3, 2, 1` give two involutions `y` for the pair 1, 3, and
two different results for the word 1, 2. -/
theorem C109_choice : ∃ y y' z : SPerm, fromInvolutionWord true [1, 2] = some z ∧ LittleStep 1 3 y z ∧ LittleStep 1 3 y' z ∧
    involutionLittleBumpAt id 20 20 [1, 2] 1 3 = .ok [2, 3] ∧ involutionLittleBump 20 [1, 2] y = .ok [2, 3] ∧
    involutionLittleBumpAt List.reverse 20 20 [1, 2] 1 3 = .ok [1, 3] ∧ involutionLittleBump 20 [1, 2] y' = .ok [1, 3] := by
  refine ⟨s 2, s 1, looseInvolution [1, 2], by decide +kernel, ?_, ?_, by decide +kernel, by decide +kernel, by decide +kernel, by decide +kernel⟩
  · rw [littleStep_iff (by decide) (by decide)]
    exact ⟨fromWord [1, 2], ⟨[1, 2], rfl, by decide +kernel⟩, ⟨[2], by decide +kernel, by decide +kernel⟩, by decide +kernel⟩
  · rw [littleStep_iff (by decide) (by decide)]
    exact ⟨fromWord [2, 1], ⟨[2, 1], rfl, by decide +kernel⟩, ⟨[1], by decide +kernel, by decide +kernel⟩, by decide +kernel⟩

/-- C109: a word that is not a reduced involution word fails the assertion. -/
theorem C109_assertion {word : List Nat} {z : SPerm} (hz : fromInvolutionWord false word = some z) (hw : involutionLength z ≠ word.length)
    (order : List SPerm → List SPerm) (depth fuel j k : Nat) : involutionLittleBumpAt order depth fuel word j k = .error .assertion := by
  have hz' : looseInvolution word = z := by rw [involution_value] at hz; exact Option.some.inj hz
  unfold involutionLittleBumpAt
  dsimp only
  rw [if_neg (by rw [hz']; exact hw)]

end Verif.Perm
