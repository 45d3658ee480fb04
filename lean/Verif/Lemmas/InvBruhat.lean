import Verif.Lemmas.LittleInv

/-! # Chains in the Bruhat order on involutions -/

namespace Verif.Perm
open Verif.PermSpec
attribute [-simp] List.getD_eq_getElem?_getD
attribute [local irreducible] mul s inverse identity len mod act SPerm.call sFun invStep

/-- Every involution has a reduced involution word. -/
theorem exists_ired {z : SPerm} (hz : Invol z) : ∃ a, looseInvolution a = z ∧ IRed a := by
  have h2 := ilen2_even hz
  obtain ⟨a, -, ha⟩ := getInvolutionWord?_spec (ilen2 z / 2 + 1) hz (by omega)
  obtain ⟨w, h3, h4, h5, h6⟩ := fromInvolutionWord_false a
  have h7 := h6 z ha
  subst h7
  have h8 : looseInvolution a = z := by unfold looseInvolution; rw [h3]; rfl
  refine ⟨a, h8, ?_⟩
  unfold IRed
  rw [h8]
  have := (fromInvolutionWord_true ha).2
  omega

theorem ilen_mono {x z : SPerm} (hx : Invol x) (hz : Invol z) (h : BruhatLE x z) :
    involutionLength x ≤ involutionLength z ∧ (involutionLength x = involutionLength z → x = z) := by
  obtain ⟨a, rfl, ha⟩ := exists_ired hz
  obtain ⟨b, hb1, rfl, hb3⟩ := subword ha hx h
  unfold IRed at ha hb3
  have := hb1.length_le
  refine ⟨by omega, fun h => ?_⟩
  rw [hb1.eq_of_length_le (by omega)]

theorem ilen_raise {x : SPerm} (hx : Invol x) {i : Nat} (hd : ¬ Desc x.call i) :
    involutionLength (invStep x i) = involutionLength x + 1 := by
  have h1 := (invStep_spec hx hd).1
  have h2 := ilen2_even hx
  have h3 := ilen2_even (invStep_involution hx i)
  omega

theorem ilen_lower {x : SPerm} (hx : Invol x) {i : Nat} (hd : Desc x.call i) :
    involutionLength (invStep x i) + 1 = involutionLength x := by
  have h1 := ilen_raise (invStep_involution hx i) (not_desc_invStep hx hd)
  rw [invStep_invStep] at h1
  omega

/-- If `z` is above `x`, with descent `i`, it is above the involution that `x` is raised to. -/
theorem raise_le_of_desc {x z : SPerm} (hx : Invol x) (hz : Invol z) (h : BruhatLE x z) {i : Nat} (hdx : ¬ Desc x.call i)
    (hdz : Desc z.call i) : BruhatLE x (invStep z i) ∧ BruhatLE (invStep x i) z := by
  have h1 := lower_le hx hz h i
  rw [if_neg (fun hc => hdx ((mem_rightDescents _ i).1 hc)), if_pos ((mem_rightDescents _ i).2 hdz)] at h1
  have h2 := raise_le hx (invStep_involution hz i) h1 hdx (not_desc_invStep hz hdz)
  rw [invStep_invStep] at h2
  exact ⟨h1, h2⟩

theorem exists_desc {z : SPerm} (h : 0 < involutionLength z) : ∃ i, Desc z.call i := by
  by_contra hc
  push Not at hc
  rw [eq_identity_of_no_desc hc] at h
  have h1 : (involutionLength identity : Nat) = 0 := by
    have := ilen_le []
    rw [loose_nil] at this
    simpa using this
  omega

/-- The next level of an interval is not empty. -/
theorem invol_chain {x z : SPerm} (hx : Invol x) (hz : Invol z) (h : BruhatLE x z) (hne : x ≠ z) :
    ∃ u, Invol u ∧ BruhatLE x u ∧ BruhatLE u z ∧ involutionLength u = involutionLength x + 1 := by
  induction hl : involutionLength z using Nat.strong_induction_on generalizing x z with
  | _ n ih =>
    subst hl
    have hm := ilen_mono hx hz h
    have hlt : involutionLength x < involutionLength z := by
      rcases Nat.lt_or_ge (involutionLength x) (involutionLength z) with h1 | h1
      · exact h1
      · exact absurd (hm.2 (by omega)) hne
    obtain ⟨i, hi⟩ := exists_desc (z := z) (by omega)
    have hz' := invStep_involution hz i
    have hlz := ilen_lower hz hi
    have hzz := lower_self_le hz hi
    have hrec : BruhatLE x (invStep z i) → ∃ u, Invol u ∧ BruhatLE x u ∧ BruhatLE u z ∧ involutionLength u = involutionLength x + 1 := by
      intro h1
      by_cases he : x = invStep z i
      · subst he
        exact ⟨z, hz, h, .refl, by omega⟩
      · obtain ⟨u, h2, h3, h4, h5⟩ := ih _ (by omega) hx hz' h1 he rfl
        exact ⟨u, h2, h3, h4.trans hzz, h5⟩
    by_cases hd : Desc x.call i
    · have h1 := lower_le hx hz h i
      rw [if_pos ((mem_rightDescents _ i).2 hd), if_pos ((mem_rightDescents _ i).2 hi)] at h1
      have hx' := invStep_involution hx i
      have hnd := not_desc_invStep hx hd
      have hne' : invStep x i ≠ invStep z i := by
        intro hc
        apply hne
        rw [← invStep_invStep x i, hc, invStep_invStep]
      obtain ⟨u, h2, h3, h4, h5⟩ := ih _ (by omega) hx' hz' h1 hne' rfl
      have hlx := ilen_lower hx hd
      by_cases hu : Desc u.call i
      · have h6 := (raise_le_of_desc hx' h2 h3 hnd hu).2
        rw [invStep_invStep] at h6
        exact hrec (h6.trans h4)
      · have h6 := raise_le hx' h2 h3 hnd hu
        have h7 := raise_le h2 hz' h4 hu (not_desc_invStep hz hi)
        rw [invStep_invStep] at h6 h7
        refine ⟨_, invStep_involution h2 i, h6, h7, ?_⟩
        rw [ilen_raise h2 hu]
        omega
    · exact hrec (raise_le_of_desc hx hz h hd hi).1

/-- `z` covers `y` in the Bruhat order on involutions. -/
def InvolCovers (y z : SPerm) : Prop := isInvolution y = true ∧ isInvolution z = true ∧ BruhatLE y z ∧ y ≠ z ∧
  ∀ u, isInvolution u = true → BruhatLE y u → BruhatLE u z → u = y ∨ u = z

theorem involCovers_iff {y z : SPerm} (hy : Invol y) (hz : Invol z) (h : BruhatLE y z) :
    InvolCovers y z ↔ involutionLength z = involutionLength y + 1 := by
  constructor
  · rintro ⟨-, -, -, hne, hb⟩
    obtain ⟨u, h1, h2, h3, h4⟩ := invol_chain hy hz h hne
    rcases hb u (isInvolution_iff.2 h1) h2 h3 with rfl | rfl
    · omega
    · exact h4
  · intro hl
    refine ⟨isInvolution_iff.2 hy, isInvolution_iff.2 hz, h, fun hc => by rw [hc] at hl; omega, fun u hu h1 h2 => ?_⟩
    have hu' := isInvolution_iff.1 hu
    have h3 := ilen_mono hy hu' h1
    have h4 := ilen_mono hu' hz h2
    by_cases he : involutionLength y = involutionLength u
    · exact .inl (h3.2 he).symm
    · exact .inr (h4.2 (by omega))

end Verif.Perm
