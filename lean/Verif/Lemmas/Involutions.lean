import Verif.Model.Involutions
import Verif.Lemmas.PermHecke

/-! Involutions: conjugation by a generator and the involution length. -/

namespace Verif.Perm

attribute [-simp] List.getD_eq_getElem?_getD

theorem isInvolution_iff {w : SPerm} : isInvolution w = true ↔ ∀ a, w.call (w.call a) = a := by
  rw [isInvolution, decide_eq_true_eq]
  constructor
  · intro h a
    have := inverse_call w a
    rwa [← h] at this
  · intro h
    apply ext_call
    intro a
    apply (call_odd w).inj
    rw [h, call_inverse]

/-- The order of the exchanged pair is changed by `s_i` only if it is the exchanged pair. -/
theorem swap_cases {i : Nat} {x y : Int} (h : x < y) (hx : x ≠ 0) (hy : y ≠ 0) (h2 : sFun i x > sFun i y) :
    (x = lo i ∧ y = i + 1) ∨ (x = -(i + 1) ∧ y = -lo i) := by
  by_contra hc
  push Not at hc
  have := sFun_lt h hx hy (fun h => hc.1 h.1 h.2) (fun h => hc.2 h.1 h.2)
  omega

theorem lo_ne_zero (i : Nat) : lo i ≠ 0 := by unfold lo; split <;> omega

/-- `w` commutes with `s_i`. -/
theorem comm_iff {w : SPerm} {i : Nat} (hw : ¬ Desc w.call i) :
    mul (s i) w = mul w (s i) ↔ (w.call (lo i) = lo i ∧ w.call (i + 1) = i + 1) ∨
      (w.call (lo i) = -(i + 1) ∧ w.call (i + 1) = -lo i) := by
  have ho := call_odd w
  have hx : w.call (lo i) ≠ 0 := ho.ne_zero (lo_ne_zero i)
  have hy : w.call (i + 1) ≠ 0 := ho.ne_zero (by omega)
  rw [Desc] at hw
  have hne : w.call (lo i) ≠ w.call ((i : Int) + 1) := fun he => lo_ne i (ho.inj _ _ he)
  constructor
  · intro h
    have h1 : ∀ a, sFun i (w.call a) = w.call (sFun i a) := fun a => by
      have := congrArg (fun v => SPerm.call v a) h
      simpa using this
    have h2 := h1 (lo i)
    have h3 := h1 (i + 1)
    rw [sFun_lo] at h2
    rw [sFun_hi] at h3
    refine swap_cases (by omega) hx hy (by rw [h2, h3]; omega)
  · intro h
    apply ext_call
    intro a
    simp only [call_mul, call_s]
    by_cases h1 : a = lo i
    · subst h1
      rw [sFun_lo]
      rcases h with ⟨e1, e2⟩ | ⟨e1, e2⟩
      · rw [e1, e2, sFun_lo]
      · rw [e1, e2, sFun_neg, sFun_hi]
    by_cases h2 : a = -lo i
    · subst h2
      rw [sFun_neg, sFun_lo, ho.neg, ho.neg, sFun_neg]
      rcases h with ⟨e1, e2⟩ | ⟨e1, e2⟩
      · rw [e1, e2, sFun_lo]
      · rw [e1, e2, sFun_neg, sFun_hi]
    by_cases h3 : a = i + 1
    · subst h3
      rw [sFun_hi]
      rcases h with ⟨e1, e2⟩ | ⟨e1, e2⟩
      · rw [e1, e2, sFun_hi]
      · rw [e1, e2, sFun_neg, sFun_lo]
    by_cases h4 : a = -(i + 1)
    · subst h4
      rw [sFun_neg, sFun_hi, ho.neg, ho.neg, sFun_neg]
      rcases h with ⟨e1, e2⟩ | ⟨e1, e2⟩
      · rw [e1, e2, sFun_hi]
      · rw [e1, e2, sFun_neg, sFun_lo]
    rw [sFun_of_ne h1 h2 h3 h4]
    have key : ∀ b, w.call a = w.call b ∨ w.call a = -w.call b → a = b ∨ a = -b := by
      intro b hb
      rcases hb with hb | hb
      · exact Or.inl (ho.inj _ _ hb)
      · rw [← ho.neg] at hb
        exact Or.inr (ho.inj _ _ hb)
    apply sFun_of_ne <;> intro he
    all_goals
      rcases h with ⟨e1, e2⟩ | ⟨e1, e2⟩
    · rcases key (lo i) (by omega) with h | h <;> omega
    · rcases key (i + 1) (by omega) with h | h <;> omega
    · rcases key (lo i) (by omega) with h | h <;> omega
    · rcases key (i + 1) (by omega) with h | h <;> omega
    · rcases key (i + 1) (by omega) with h | h <;> omega
    · rcases key (lo i) (by omega) with h | h <;> omega
    · rcases key (i + 1) (by omega) with h | h <;> omega
    · rcases key (lo i) (by omega) with h | h <;> omega

/-- If `i` is an ascent of `w` on both sides and `w` does not commute with `s_i`, then the two-sided product is longer
by two. -/
theorem not_desc_conj {w : SPerm} {i : Nat} (hl : ¬ Desc (inverse w).call i)
    (hc : mul (s i) w ≠ mul w (s i)) : ¬ Desc (inverse (mul w (s i))).call i := by
  intro hd
  apply hc
  have ho := call_odd (inverse w)
  have hx : (inverse w).call (lo i) ≠ 0 := ho.ne_zero (lo_ne_zero i)
  have hy : (inverse w).call (i + 1) ≠ 0 := ho.ne_zero (by omega)
  rw [inverse_mul_rev, inverse_s, Desc] at hd
  simp only [call_mul, call_s] at hd
  have hl' := hl
  rw [Desc] at hl
  have hne : (inverse w).call (lo i) ≠ (inverse w).call ((i : Int) + 1) := fun he => lo_ne i (ho.inj _ _ he)
  have h := (comm_iff (w := inverse w) hl').2 (swap_cases (by omega) hx hy hd)
  have := congrArg inverse h
  rw [inverse_mul_rev, inverse_mul_rev, inverse_inverse, inverse_s] at this
  exact this.symm

/-! ### the number of 2-cycles and negated points -/

/-- Numbers of absolute value at most `N` fixed by `f`. -/
def fixSet (N : Nat) (f : Int → Int) : Finset Int := (Finset.Icc (-(N : Int)) N).filter (fun a => f a = a)

/-- Numbers of absolute value at most `N` negated by `f`. -/
def negSet (N : Nat) (f : Int → Int) : Finset Int := (Finset.Icc (-(N : Int)) N).filter (fun a => f a = -a)

theorem mem_fixSet {N f a} : a ∈ fixSet N f ↔ a.natAbs ≤ N ∧ f a = a := by
  rw [fixSet, Finset.mem_filter, Finset.mem_Icc]
  refine and_congr_left (fun _ => by omega)

theorem mem_negSet {N f a} : a ∈ negSet N f ↔ a.natAbs ≤ N ∧ f a = -a := by
  rw [negSet, Finset.mem_filter, Finset.mem_Icc]
  refine and_congr_left (fun _ => by omega)

theorem card_symm {N : Nat} {p : Int → Prop} [DecidablePred p] (hp : ∀ a, p (-a) ↔ p a) (h0 : p 0) :
    ((Finset.Icc (-(N : Int)) N).filter p).card = 2 * ((Finset.Icc 1 (N : Int)).filter p).card + 1 := by
  classical
  have hsplit : (Finset.Icc (-(N : Int)) N).filter p =
      (((Finset.Icc 1 (N : Int)).filter p).image (fun a => -a) ∪ ((Finset.Icc 1 (N : Int)).filter p)) ∪ {0} := by
    ext a
    simp only [Finset.mem_filter, Finset.mem_Icc, Finset.mem_union, Finset.mem_image, Finset.mem_singleton]
    constructor
    · rintro ⟨h1, h2⟩
      rcases lt_trichotomy a 0 with h | h | h
      · exact Or.inl (Or.inl ⟨-a, ⟨by omega, (hp a).2 h2⟩, by omega⟩)
      · exact Or.inr h
      · exact Or.inl (Or.inr ⟨by omega, h2⟩)
    · rintro ((⟨b, ⟨h1, h2⟩, rfl⟩ | ⟨h1, h2⟩) | rfl)
      · exact ⟨by omega, (hp b).2 h2⟩
      · exact ⟨by omega, h2⟩
      · exact ⟨by omega, h0⟩
  rw [hsplit, Finset.card_union_of_disjoint, Finset.card_union_of_disjoint, Finset.card_image_of_injective _ neg_injective,
    Finset.card_singleton]
  · omega
  · rw [Finset.disjoint_left]
    intro a h1 h2
    simp only [Finset.mem_filter, Finset.mem_Icc, Finset.mem_image] at h1 h2
    obtain ⟨b, hb, rfl⟩ := h1
    omega
  · rw [Finset.disjoint_left]
    intro a h1 h2
    simp only [Finset.mem_filter, Finset.mem_Icc, Finset.mem_image, Finset.mem_union, Finset.mem_singleton] at h1 h2
    rcases h1 with ⟨b, hb, rfl⟩ | h1 <;> omega

/-- The pairs of an involution as a set. -/
def pairSet (N : Nat) (f : Int → Int) : Finset Int :=
  (Finset.Icc (-(N : Int)) N).filter (fun a => 0 < a.natAbs ∧ (a.natAbs : Int) < f a)

theorem mem_pairSet {N f a} : a ∈ pairSet N f ↔ a.natAbs ≤ N ∧ a ≠ 0 ∧ (a.natAbs : Int) < f a := by
  rw [pairSet, Finset.mem_filter, Finset.mem_Icc]
  constructor
  · rintro ⟨h1, h2, h3⟩
    exact ⟨by omega, by omega, h3⟩
  · rintro ⟨h1, h2, h3⟩
    exact ⟨by omega, by omega, h3⟩

theorem length_pairs (w : SPerm) {N : Nat} (hN : w.rank ≤ N) : (pairs w).length = (pairSet N w.call).card := by
  classical
  have h1 : (pairs w).length = (((Finset.range (2 * w.rank + 1)).filter (fun k : Nat =>
      0 < ((k : Int) - w.rank).natAbs ∧ ((((k : Int) - w.rank).natAbs : Nat) : Int) < w.call ((k : Int) - w.rank)))).card := by
    rw [pairs, List.length_map, ← List.toFinset_card_of_nodup (List.nodup_range.filter _)]
    congr 1
    ext k
    simp
  rw [h1]
  refine Finset.card_bij (fun k _ => (k : Int) - w.rank) ?_ ?_ ?_
  · intro k hk
    simp only [Finset.mem_filter, Finset.mem_range] at hk
    rw [mem_pairSet]
    exact ⟨by omega, by omega, hk.2.2⟩
  · intro a _ b _ h
    omega
  · intro a ha
    rw [mem_pairSet] at ha
    have hr : a.natAbs ≤ w.rank := by
      by_contra hc
      have := (call_odd w).out a (by omega)
      omega
    refine ⟨(a + w.rank).toNat, ?_, by omega⟩
    have he : (((a + w.rank).toNat : Nat) : Int) - w.rank = a := by omega
    simp only [Finset.mem_filter, Finset.mem_range, he]
    exact ⟨by omega, by omega, ha.2.2⟩

theorem length_negations (w : SPerm) {N : Nat} (hN : w.rank ≤ N) :
    2 * (negations w).length + 1 = (negSet N w.call).card := by
  classical
  have hodd := call_odd w
  rw [negSet, card_symm (fun a => by rw [hodd.neg]; omega) (by rw [hodd.zero]; rfl)]
  congr 2
  have h1 : (negations w).length = (((Finset.range w.rank).filter (fun k : Nat =>
      w.call ((k : Int) + 1) = -((k : Int) + 1)))).card := by
    rw [negations, List.length_map, ← List.toFinset_card_of_nodup (List.nodup_range.filter _)]
    congr 1
    ext k
    simp
  rw [h1]
  refine Finset.card_bij (fun k _ => (k : Int) + 1) ?_ ?_ ?_
  · intro k hk
    simp only [Finset.mem_filter, Finset.mem_range, Finset.mem_Icc] at hk ⊢
    exact ⟨by omega, hk.2⟩
  · intro a _ b _ h
    omega
  · intro a ha
    simp only [Finset.mem_filter, Finset.mem_Icc] at ha
    have hr : a.natAbs ≤ w.rank := by
      by_contra hc
      have := hodd.out a (by omega)
      omega
    refine ⟨(a - 1).toNat, ?_, by omega⟩
    have he : (((a - 1).toNat : Nat) : Int) + 1 = a := by omega
    simp only [Finset.mem_filter, Finset.mem_range, he]
    exact ⟨by omega, ha.2⟩

/-- Points of an involution: fixed, negated, or in one of the pairs. -/
theorem count_points {w : SPerm} (hw : ∀ a, w.call (w.call a) = a) {N : Nat} (hN : w.rank ≤ N) :
    4 * ((negations w).length + (pairs w).length) + (fixSet N w.call).card = 2 * N + (negSet N w.call).card := by
  classical
  have hodd := (call_odd w).mono hN
  have hF : (fixSet N w.call).card = 2 * ((Finset.Icc 1 (N : Int)).filter (fun a => w.call a = a)).card + 1 :=
    card_symm (fun a => by rw [hodd.neg]; omega) hodd.zero
  have hG : (negSet N w.call).card = 2 * ((Finset.Icc 1 (N : Int)).filter (fun a => w.call a = -a)).card + 1 :=
    card_symm (fun a => by rw [hodd.neg]; omega) (by rw [hodd.zero]; rfl)
  have hn := length_negations w hN
  rw [length_pairs w hN]
  have hA : ((Finset.Icc 1 (N : Int)).filter (fun a => (w.call a).natAbs < a)).card = (pairSet N w.call).card := by
    refine Finset.card_bij (fun a _ => w.call a) ?_ ?_ ?_
    · intro a ha
      simp only [Finset.mem_filter, Finset.mem_Icc] at ha
      rw [mem_pairSet, hw]
      refine ⟨hodd.bound _ (by omega), hodd.ne_zero (by omega), ha.2⟩
    · intro a _ b _ h
      exact hodd.inj _ _ h
    · intro a ha
      rw [mem_pairSet] at ha
      refine ⟨w.call a, ?_, hw a⟩
      simp only [Finset.mem_filter, Finset.mem_Icc, hw]
      have := hodd.bound a ha.1
      omega
  have hB : ((Finset.Icc 1 (N : Int)).filter (fun a => a < (w.call a).natAbs)).card = (pairSet N w.call).card := by
    refine Finset.card_bij (fun a _ => if 0 < w.call a then a else -a) ?_ ?_ ?_
    · intro a ha
      simp only [Finset.mem_filter, Finset.mem_Icc] at ha
      rw [mem_pairSet]
      split
      · exact ⟨by omega, by omega, by omega⟩
      · rw [hodd.neg]
        exact ⟨by omega, by omega, by omega⟩
    · intro a ha b hb h
      simp only [Finset.mem_filter, Finset.mem_Icc] at ha hb
      split at h <;> split at h <;> omega
    · intro a ha
      rw [mem_pairSet] at ha
      by_cases h0 : 0 < a
      · refine ⟨a, ?_, ?_⟩
        · simp only [Finset.mem_filter, Finset.mem_Icc]
          omega
        · rw [if_pos (by omega)]
      · refine ⟨-a, ?_, ?_⟩
        · simp only [Finset.mem_filter, Finset.mem_Icc, hodd.neg]
          omega
        · rw [hodd.neg, if_neg (by omega), neg_neg]
  have hT : N = ((Finset.Icc 1 (N : Int)).filter (fun a => w.call a = a)).card +
      ((Finset.Icc 1 (N : Int)).filter (fun a => w.call a = -a)).card +
      ((Finset.Icc 1 (N : Int)).filter (fun a => (w.call a).natAbs < a)).card +
      ((Finset.Icc 1 (N : Int)).filter (fun a => a < (w.call a).natAbs)).card := by
    have h1 : N = (Finset.Icc 1 (N : Int)).card := by simp
    conv_lhs => rw [h1]
    rw [← Finset.card_union_of_disjoint, ← Finset.card_union_of_disjoint, ← Finset.card_union_of_disjoint]
    · congr 1
      ext a
      simp only [Finset.mem_union, Finset.mem_filter, Finset.mem_Icc]
      omega
    all_goals
      rw [Finset.disjoint_left]
      intro a h1 h2
      simp only [Finset.mem_union, Finset.mem_filter, Finset.mem_Icc] at h1 h2
      omega
  omega

theorem call_conj (w : SPerm) (i : Nat) (a : Int) : (mul (mul (s i) w) (s i)).call a = sFun i (w.call (sFun i a)) := by
  simp

theorem natAbs_sFun {N i : Nat} (hi : i + 1 ≤ N) {a : Int} (ha : a.natAbs ≤ N) : (sFun i a).natAbs ≤ N :=
  ((sFun_odd i).mono hi).bound a ha

theorem card_fix_conj {w : SPerm} {i N : Nat} (hi : i + 1 ≤ N) :
    (fixSet N (mul (mul (s i) w) (s i)).call).card = (fixSet N w.call).card := by
  refine Finset.card_bij (fun a _ => sFun i a) ?_ ?_ ?_
  · intro a ha
    rw [mem_fixSet, call_conj] at ha
    rw [mem_fixSet]
    refine ⟨natAbs_sFun hi ha.1, ?_⟩
    have := congrArg (sFun i) ha.2
    rwa [sFun_sFun] at this
  · intro a _ b _ h
    exact (sFun_odd i).inj _ _ h
  · intro a ha
    rw [mem_fixSet] at ha
    refine ⟨sFun i a, ?_, sFun_sFun i a⟩
    rw [mem_fixSet, call_conj, sFun_sFun, ha.2]
    exact ⟨natAbs_sFun hi ha.1, rfl⟩

theorem card_neg_conj {w : SPerm} {i N : Nat} (hi : i + 1 ≤ N) :
    (negSet N (mul (mul (s i) w) (s i)).call).card = (negSet N w.call).card := by
  refine Finset.card_bij (fun a _ => sFun i a) ?_ ?_ ?_
  · intro a ha
    rw [mem_negSet, call_conj] at ha
    rw [mem_negSet]
    refine ⟨natAbs_sFun hi ha.1, ?_⟩
    rw [← sFun_neg, ← ha.2, sFun_sFun]
  · intro a _ b _ h
    exact (sFun_odd i).inj _ _ h
  · intro a ha
    rw [mem_negSet] at ha
    refine ⟨sFun i a, ?_, sFun_sFun i a⟩
    rw [mem_negSet, call_conj, sFun_sFun, ha.2, sFun_neg]
    exact ⟨natAbs_sFun hi ha.1, rfl⟩

/-- The numbers moved by `s_i`. -/
def moved (i : Nat) : Finset Int := {lo i, -lo i, (i : Int) + 1, -((i : Int) + 1)}

theorem card_split (S E : Finset Int) : S.card = (S \ E).card + (S ∩ E).card := by
  rw [Finset.card_sdiff_add_card_inter]

theorem fixneg_comm {w : SPerm} {i N : Nat} (hi : i + 1 ≤ N)
    (h : (w.call (lo i) = lo i ∧ w.call (i + 1) = i + 1) ∨ (w.call (lo i) = -(i + 1) ∧ w.call (i + 1) = -lo i)) :
    (negSet N (mul w (s i)).call).card + (fixSet N w.call).card =
      (negSet N w.call).card + (fixSet N (mul w (s i)).call).card + 4 := by
  have ho := call_odd w
  have hout : ∀ a, a ∉ moved i → (mul w (s i)).call a = w.call a := by
    intro a ha
    rw [call_mul, call_s]
    simp only [moved, Finset.mem_insert, Finset.mem_singleton, not_or] at ha
    rw [sFun_of_ne ha.1 ha.2.1 ha.2.2.1 ha.2.2.2]
  have h1 : negSet N (mul w (s i)).call \ moved i = negSet N w.call \ moved i := by
    ext a
    rw [Finset.mem_sdiff, Finset.mem_sdiff, mem_negSet, mem_negSet]
    refine and_congr_left (fun ha => ?_)
    rw [hout a ha]
  have h2 : fixSet N (mul w (s i)).call \ moved i = fixSet N w.call \ moved i := by
    ext a
    rw [Finset.mem_sdiff, Finset.mem_sdiff, mem_fixSet, mem_fixSet]
    refine and_congr_left (fun ha => ?_)
    rw [hout a ha]
  rw [card_split (negSet N (mul w (s i)).call) (moved i), card_split (fixSet N w.call) (moved i),
    card_split (negSet N w.call) (moved i), card_split (fixSet N (mul w (s i)).call) (moved i), h1, h2]
  have hlo : (lo i).natAbs ≤ N := by unfold lo; split <;> omega
  have hl : (i = 0 ∧ lo i = -1) ∨ (1 ≤ i ∧ lo i = i) := by unfold lo; split <;> omega
  have e1 : (mul w (s i)).call (lo i) = w.call (i + 1) := by rw [call_mul, call_s, sFun_lo]
  have e2 : (mul w (s i)).call (i + 1) = w.call (lo i) := by rw [call_mul, call_s, sFun_hi]
  have on := call_odd (mul w (s i))
  have key : ∀ (f : Int → Int), (∀ a, f (-a) = -f a) → ∀ c : Int → Int, (∀ a, c (-a) = -c a) →
      ∀ (S : Finset Int), (∀ a, a ∈ S ↔ a.natAbs ≤ N ∧ f a = c a) →
      (f (lo i) = c (lo i) → f (i + 1) = c (i + 1) → S ∩ moved i = moved i) ∧
      (f (lo i) ≠ c (lo i) → f (i + 1) ≠ c (i + 1) → S ∩ moved i = ∅) := by
    intro f hf c hc S hS
    constructor
    · intro h1 h2
      ext a
      simp only [Finset.mem_inter, hS, moved, Finset.mem_insert, Finset.mem_singleton, and_iff_right_iff_imp]
      rintro (rfl | rfl | rfl | rfl)
      · exact ⟨hlo, h1⟩
      · exact ⟨by omega, by rw [hf, hc, h1]⟩
      · exact ⟨by omega, h2⟩
      · exact ⟨by omega, by rw [hf, hc, h2]⟩
    · intro h1 h2
      ext a
      simp only [Finset.mem_inter, hS, moved, Finset.mem_insert, Finset.mem_singleton, Finset.notMem_empty, iff_false, not_and]
      rintro ⟨-, h3⟩ (rfl | rfl | rfl | rfl)
      · exact h1 h3
      · rw [hf, hc] at h3; omega
      · exact h2 h3
      · rw [hf, hc] at h3; omega
  have kN := key _ on.neg (fun a => -a) (fun a => rfl) (negSet N (mul w (s i)).call) (fun a => mem_negSet)
  have kF := key _ on.neg (fun a => a) (fun a => rfl) (fixSet N (mul w (s i)).call) (fun a => mem_fixSet)
  have kn := key _ ho.neg (fun a => -a) (fun a => rfl) (negSet N w.call) (fun a => mem_negSet)
  have kf := key _ ho.neg (fun a => a) (fun a => rfl) (fixSet N w.call) (fun a => mem_fixSet)
  rw [e1, e2] at kN kF
  rcases hl with ⟨rfl, hl⟩ | ⟨hl0, hl⟩
  · have hc : (moved 0).card = 2 := by decide
    have h' : w.call (lo 0) = lo 0 ∧ w.call ((0 : Nat) + 1) = (0 : Nat) + 1 := by
      rw [hl] at h ⊢
      simpa using h
    rw [h'.1, h'.2] at kN kF kn kf
    rw [kN.1 (by simp [hl]) (by simp [hl]), kF.2 (by simp [hl]) (by simp [hl]), kn.2 (by simp [hl]) (by simp),
      kf.1 rfl rfl, hc]
    simp only [Finset.card_empty]
    omega
  · have hc : (moved i).card = 4 := by
      rw [moved, hl, Finset.card_insert_of_notMem, Finset.card_insert_of_notMem, Finset.card_insert_of_notMem,
        Finset.card_singleton]
      all_goals
        simp only [Finset.mem_insert, Finset.mem_singleton]
        omega
    rcases h with ⟨a1, a2⟩ | ⟨a1, a2⟩ <;> rw [a1, a2] at kN kF kn kf
    · rw [kN.2 (by omega) (by omega), kF.2 (by omega) (by omega), kn.2 (by omega) (by omega), kf.1 rfl rfl, hc]
      simp only [Finset.card_empty]
      omega
    · rw [kN.1 rfl rfl, kF.2 (by omega) (by omega), kn.2 (by omega) (by omega), kf.2 (by omega) (by omega), hc]
      simp only [Finset.card_empty]
      omega

/-! ### one step of an involution word -/

/-- The value of the loop of `from_involution_word` after one letter. -/
def invStep (w : SPerm) (i : Nat) : SPerm :=
  if mul (s i) w = mul w (s i) then mul w (s i) else mul (mul (s i) w) (s i)

theorem invStep_involution {w : SPerm} (hw : ∀ a, w.call (w.call a) = a) (i : Nat) :
    ∀ a, (invStep w i).call ((invStep w i).call a) = a := by
  intro a
  unfold invStep
  split
  · rename_i h
    have h1 : ∀ a, sFun i (w.call a) = w.call (sFun i a) := fun a => by
      have := congrArg (fun v => SPerm.call v a) h
      simpa using this
    rw [call_mul, call_mul, call_s, call_s, h1, sFun_sFun, hw]
  · rw [call_conj, call_conj, sFun_sFun, hw, sFun_sFun]

theorem inverse_of_involution {w : SPerm} (hw : ∀ a, w.call (w.call a) = a) : inverse w = w := by
  have := isInvolution_iff.2 hw
  rw [isInvolution, decide_eq_true_eq] at this
  exact this.symm

/-- The numerator in `involution_length`. -/
def ilen2 (w : SPerm) : Nat := (negations w).length + (pairs w).length + len w

theorem len_conj {w : SPerm} (hw : ∀ a, w.call (w.call a) = a) {i : Nat} (hd : ¬ Desc w.call i)
    (hc : mul (s i) w ≠ mul w (s i)) :
    len (mul (mul (s i) w) (s i)) = len w + 2 ∧ mod (s i) (mul w (s i)) = mul (mul (s i) w) (s i) ∧
      Desc (mul (mul (s i) w) (s i)).call i := by
  have hi := inverse_of_involution hw
  have h1 := len_mul_s_of_not hd
  have h2 := not_desc_conj (by rwa [hi]) hc
  have h3 : len (mul (s i) (mul w (s i))) = len (mul w (s i)) + 1 :=
    len_s_mul_of_not (by rw [mem_leftDescents]; exact h2)
  have h4 : mod (s i) (mul w (s i)) = mul (s i) (mul w (s i)) := mod_of_len (by rw [h3, len_s]; omega)
  rw [mul_assoc']
  refine ⟨by omega, h4, ?_⟩
  rw [← mul_assoc']
  rw [desc_mul_s]
  intro h
  have h5 := len_mul_s_of_desc h
  have h6 : len (mul (s i) w) = len w + 1 := len_s_mul_of_not (by rw [mem_leftDescents, hi]; exact hd)
  rw [mul_assoc'] at h5
  omega

theorem invStep_spec {w : SPerm} (hw : ∀ a, w.call (w.call a) = a) {i : Nat} (hd : ¬ Desc w.call i) :
    ilen2 (invStep w i) = ilen2 w + 2 ∧ Desc (invStep w i).call i ∧ invStep w i = mod (s i) (mod w (s i)) := by
  have hN : w.rank ≤ max w.rank (i + 1) := le_max_left _ _
  have hi : i + 1 ≤ max w.rank (i + 1) := le_max_right _ _
  have hs : mod w (s i) = mul w (s i) := by rw [mod_s, act_of_not hd]
  have hrank : ∀ v : SPerm, (∀ a, (max w.rank (i + 1)) < a.natAbs → v.call a = a) → v.rank ≤ max w.rank (i + 1) := by
    intro v hv
    have ho := call_odd v
    refine rank_le_of_odd ⟨ho.neg, ho.inj, fun a ha => ?_, hv⟩
    by_contra hc
    have h1 := hv (v.call a) (by omega)
    have := ho.inj _ _ h1
    omega
  have so := (sFun_odd i).mono hi
  have wo := (call_odd w).mono hN
  by_cases hc : mul (s i) w = mul w (s i)
  · have hst : invStep w i = mul w (s i) := if_pos hc
    have hinv := invStep_involution hw i
    rw [hst] at hinv ⊢
    have hr : (mul w (s i)).rank ≤ max w.rank (i + 1) := hrank _ (fun a ha => by
      rw [call_mul, call_s, so.out a ha, wo.out a ha])
    have h1 := count_points hw hN
    have h2 := count_points hinv hr
    have h3 := fixneg_comm hi ((comm_iff hd).1 hc)
    have h4 := len_mul_s_of_not hd
    refine ⟨by unfold ilen2; omega, (desc_mul_s w i).2 hd, ?_⟩
    rw [hs, ← hc]
    have h5 : len (mul (s i) w) = len w + 1 := by rw [hc, h4]
    have h6 : mul (s i) w = mod (s i) w := (mod_of_len (by rw [h5, len_s]; omega)).symm
    have h7 := (desc_mul_s identity i).2 (by
      rw [← mem_rightDescents, rightDescents_one]
      simp)
    rw [one_mul'] at h7
    have h8 : mod (s i) (s i) = s i := by rw [mod_s, act_of_desc h7]
    rw [h6, ← mod_assoc, h8]
  · have hst : invStep w i = mul (mul (s i) w) (s i) := if_neg hc
    have hinv := invStep_involution hw i
    obtain ⟨l1, l2, l3⟩ := len_conj hw hd hc
    rw [hst] at hinv ⊢
    have hr : (mul (mul (s i) w) (s i)).rank ≤ max w.rank (i + 1) := hrank _ (fun a ha => by
      rw [call_conj, so.out a ha, wo.out a ha, so.out a ha])
    have h1 := count_points hw hN
    have h2 := count_points hinv hr
    rw [card_fix_conj hi, card_neg_conj hi] at h2
    exact ⟨by unfold ilen2; omega, l3, by rw [hs, l2]⟩

/-- Every letter of a right descent can be removed. -/
theorem invStep_invStep (w : SPerm) (i : Nat) : invStep (invStep w i) i = w := by
  unfold invStep
  by_cases hc : mul (s i) w = mul w (s i)
  · rw [if_pos hc, if_pos, mul_s_s]
    rw [← mul_assoc', hc]
  · rw [if_neg hc, if_neg, mul_assoc', mul_s_s, s_mul_s_mul]
    intro h
    apply hc
    rw [mul_s_s, mul_assoc', s_mul_s_mul] at h
    exact h.symm

theorem not_desc_invStep {w : SPerm} (hw : ∀ a, w.call (w.call a) = a) {i : Nat} (hd : Desc w.call i) :
    ¬ Desc (invStep w i).call i := by
  intro h
  have hinv := inverse_of_involution hw
  have hdl : i ∈ leftDescents w := by rw [mem_leftDescents, hinv]; exact hd
  by_cases hc : mul (s i) w = mul w (s i)
  · rw [show invStep w i = mul w (s i) from if_pos hc, desc_mul_s] at h
    exact h hd
  · rw [show invStep w i = mul (mul (s i) w) (s i) from if_neg hc, desc_mul_s] at h
    -- `i` is an ascent of `s_i w`, a left ascent too, and `w = s_i (s_i w)`
    have h1 : ¬ Desc (mul (s i) w).call i := h
    have h2 : ¬ Desc (inverse (mul (s i) w)).call i := by
      rw [inverse_s_mul, hinv, desc_mul_s]
      simpa using hd
    have hc' : mul (s i) (mul (s i) w) ≠ mul (mul (s i) w) (s i) := by
      intro he
      rw [s_mul_s_mul] at he
      have h3 := len_mul_s_of_not h1
      rw [← he] at h3
      apply hc
      have := congrArg (fun v => mul v (s i)) he
      simp only [mul_s_s] at this
      exact this.symm
    have h3 := not_desc_conj h2 hc'
    rw [inverse_mul_rev, inverse_s, inverse_s_mul, hinv] at h3
    have h5 := len_mul_s_of_not h1
    have h6 : len (mul (s i) (mul (mul (s i) w) (s i))) = len (mul (mul (s i) w) (s i)) + 1 :=
      len_s_mul_of_not (by
        rw [mem_leftDescents, inverse_mul_rev, inverse_s, inverse_s_mul, hinv]
        exact h3)
    have h7 : mul (s i) (mul (mul (s i) w) (s i)) = mul w (s i) := by
      rw [mul_assoc', s_mul_s_mul]
    rw [h7] at h6
    have h8 := len_mul_s_of_desc hd
    have h9 := len_s_mul_of_desc hdl
    omega

/-! ### involution words -/

theorem fromInvolutionLoop_concat (strict : Bool) (w : SPerm) (a : List Nat) (i : Nat) :
    fromInvolutionLoop strict w (a ++ [i]) = (fromInvolutionLoop strict w a).bind (fun v =>
      if i ∈ rightDescents v ∧ strict then none else some (invStep v i)) := by
  induction a generalizing w with
  | nil =>
    simp only [List.nil_append, fromInvolutionLoop, Option.bind_some, invStep]
    split
    · rfl
    · split <;> rfl
  | cons j a ih =>
    simp only [List.cons_append, fromInvolutionLoop]
    split
    · rfl
    · split
      · exact ih _
      · exact ih _

theorem fromInvolutionWord_concat (strict : Bool) (a : List Nat) (i : Nat) :
    fromInvolutionWord strict (a ++ [i]) = (fromInvolutionWord strict a).bind (fun v =>
      if i ∈ rightDescents v ∧ strict then none else some (invStep v i)) := fromInvolutionLoop_concat strict identity a i

theorem identity_involution : ∀ a, identity.call (identity.call a) = a := fun a => by rw [call_identity, call_identity]

theorem ilen2_identity : ilen2 identity = 0 := by decide

theorem fromInvolutionWord_false (a : List Nat) :
    ∃ w, fromInvolutionWord false a = some w ∧ (∀ b, w.call (w.call b) = b) ∧ ilen2 w ≤ 2 * a.length ∧
      ∀ v, fromInvolutionWord true a = some v → v = w := by
  induction a using List.reverseRecOn with
  | nil => exact ⟨identity, rfl, identity_involution, by rw [ilen2_identity]; omega, fun v hv => by
      rw [fromInvolutionWord, fromInvolutionLoop, Option.some.injEq] at hv
      exact hv.symm⟩
  | append_singleton a i ih =>
    obtain ⟨w, h1, h2, h3, h4⟩ := ih
    refine ⟨invStep w i, ?_, invStep_involution h2 i, ?_, ?_⟩
    · rw [fromInvolutionWord_concat, h1]
      simp
    · rw [List.length_append, List.length_singleton]
      by_cases hd : Desc w.call i
      · have h5 := (invStep_spec (invStep_involution h2 i) (not_desc_invStep h2 hd)).1
        rw [invStep_invStep] at h5
        omega
      · have := (invStep_spec h2 hd).1
        omega
    · intro v hv
      rw [fromInvolutionWord_concat] at hv
      cases hf : fromInvolutionWord true a with
      | none => rw [hf] at hv; cases hv
      | some u =>
        rw [hf, Option.bind_some] at hv
        split at hv
        · cases hv
        · rw [Option.some.injEq] at hv
          rw [← hv, h4 u hf]

/-- The result of the strict function has the length of the word as its involution length. -/
theorem fromInvolutionWord_true {a : List Nat} {w : SPerm} (h : fromInvolutionWord true a = some w) :
    (∀ b, w.call (w.call b) = b) ∧ ilen2 w = 2 * a.length := by
  induction a using List.reverseRecOn generalizing w with
  | nil =>
    rw [fromInvolutionWord, fromInvolutionLoop, Option.some.injEq] at h
    subst h
    exact ⟨identity_involution, ilen2_identity⟩
  | append_singleton a i ih =>
    rw [fromInvolutionWord_concat] at h
    cases hf : fromInvolutionWord true a with
    | none => rw [hf] at h; cases h
    | some u =>
      rw [hf, Option.bind_some] at h
      obtain ⟨h1, h2⟩ := ih hf
      split at h
      · cases h
      · rename_i hd
        rw [Option.some.injEq] at h
        subst h
        have hd' : ¬ Desc u.call i := by
          rw [← mem_rightDescents]
          exact fun h => hd ⟨h, rfl⟩
        refine ⟨invStep_involution h1 i, ?_⟩
        rw [(invStep_spec h1 hd').1, h2, List.length_append, List.length_singleton]
        omega

theorem getInvolutionWord?_spec (fuel : Nat) : ∀ {w : SPerm}, (∀ a, w.call (w.call a) = a) → ilen2 w / 2 < fuel →
    ∃ a, getInvolutionWord? fuel w = .ok a ∧ fromInvolutionWord true a = some w := by
  induction fuel with
  | zero => intro w _ h; omega
  | succ fuel ih =>
    intro w hw hf
    rw [getInvolutionWord?, if_pos (isInvolution_iff.2 hw)]
    cases hm : (leftDescents w).min? with
    | none =>
      rw [List.min?_eq_none_iff] at hm
      have := leftDescents_identity hm
      subst this
      exact ⟨[], rfl, rfl⟩
    | some i =>
      have hi := (List.min?_eq_some_iff.1 hm).1
      rw [mem_leftDescents, inverse_of_involution hw] at hi
      have hst : (if mul w (s i) = mul (s i) w then mul w (s i) else mul (mul (s i) w) (s i)) = invStep w i := by
        unfold invStep
        by_cases h : mul (s i) w = mul w (s i)
        · rw [if_pos h, if_pos h.symm]
        · rw [if_neg h, if_neg (fun h' => h h'.symm)]
      simp only [hst]
      have h1 := invStep_involution hw i
      have h2 := not_desc_invStep hw hi
      have h3 := (invStep_spec h1 h2).1
      rw [invStep_invStep] at h3
      obtain ⟨a, ha1, ha2⟩ := ih h1 (by omega)
      refine ⟨a ++ [i], by rw [ha1]; rfl, ?_⟩
      rw [fromInvolutionWord_concat, ha2, Option.bind_some, if_neg, invStep_invStep]
      rw [mem_rightDescents]
      exact fun h => h2 h.1

theorem ilen2_even {w : SPerm} (hw : ∀ a, w.call (w.call a) = a) : 2 * involutionLength w = ilen2 w := by
  obtain ⟨a, -, ha⟩ := getInvolutionWord?_spec (ilen2 w / 2 + 1) hw (by omega)
  have := (fromInvolutionWord_true ha).2
  have h : involutionLength w = ilen2 w / 2 := rfl
  omega

end Verif.Perm
