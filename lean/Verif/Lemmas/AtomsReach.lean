import Verif.Lemmas.AtomsList

/-! # Atoms of involutions: every atom is reached from the minimal one -/

namespace Verif.Perm
open Verif.PermSpec
attribute [-simp] List.getD_eq_getElem?_getD
attribute [local irreducible] mul s inverse identity len mod act demazure SPerm.call sFun invStep

variable {x y : SPerm} {T : Int → Int → Prop}

/-- The two kinds of moves from one atom to another. -/
def Step (y : SPerm) (l l' : List Int) : Prop :=
  (∃ A B a b c, l = A ++ [c, a, b] ++ B ∧ l' = A ++ [b, c, a] ++ B ∧ a < b ∧ b < c) ∨
  (∃ A B a b, l = A ++ [-b, -a] ++ B ∧ l' = A ++ [a, -b] ++ B ∧ 0 < a ∧ a < b ∧ (∀ v ∈ A, b ≤ v.natAbs) ∧ AtomLine y l')

theorem Step.length {l l' : List Int} (h : Step y l l') : l'.length = l.length := by
  rcases h with ⟨A, B, a, b, c, rfl, rfl, -, -⟩ | ⟨A, B, a, b, rfl, rfl, -⟩ <;> simp

theorem Step.atom {l l' : List Int} (h : Step y l l') (hl : AtomLine y l) : AtomLine y l' := by
  rcases h with ⟨A, B, a, b, c, rfl, rfl, h1, h2⟩ | ⟨A, B, a, b, -, -, -, -, -, h⟩
  · exact hl.first h1 h2
  · exact h

/-! ### the measure -/

/-- A number that grows with every move. -/
def psi (N : Nat) : Nat → List Int → Nat
  | _, [] => 0
  | k, v :: l => k * 2 ^ (v + N).toNat + psi N (k + 1) l

theorem psi_append (N : Nat) (A B : List Int) (k : Nat) : psi N k (A ++ B) = psi N k A + psi N (k + A.length) B := by
  induction A generalizing k with
  | nil => simp [psi]
  | cons v A ih =>
    rw [List.cons_append, psi, psi, ih, List.length_cons, show k + 1 + A.length = k + (A.length + 1) by omega]; omega

theorem psi_le (N : Nat) (l : List Int) (k : Nat) (h : ∀ v ∈ l, v.natAbs ≤ N) :
    psi N k l ≤ l.length * ((k + l.length) * 2 ^ (2 * N)) := by
  induction l generalizing k with
  | nil => simp [psi]
  | cons v l ih =>
    have h1 := ih (k + 1) (fun v hv => h v (by simp [hv]))
    have h2 : 2 ^ (v + N).toNat ≤ 2 ^ (2 * N) := Nat.pow_le_pow_right (by omega) (by have := h v (by simp); omega)
    rw [psi, List.length_cons]
    have h3 : k * 2 ^ (v + N).toNat ≤ (k + (l.length + 1)) * 2 ^ (2 * N) := Nat.mul_le_mul (by omega) h2
    rw [show k + 1 + l.length = k + (l.length + 1) by omega] at h1
    rw [Nat.succ_mul]; omega

theorem psi_lt {N : Nat} {l l' : List Int} (h : Step y l l') (hb : ∀ v ∈ l, v.natAbs ≤ N) : psi N 1 l < psi N 1 l' := by
  rcases h with ⟨A, B, a, b, c, rfl, rfl, h1, h2⟩ | ⟨A, B, a, b, rfl, rfl, h1, h2, -, -⟩
  · have b1 := hb a (by simp)
    have b2 := hb b (by simp)
    rw [psi_append, psi_append, psi_append, psi_append]
    simp only [psi, List.length_append, List.length_cons, List.length_nil]
    have e : 2 ^ (c + N).toNat = 2 * 2 ^ (b + N).toNat * 2 ^ ((c - b).toNat - 1) := by
      rw [← Nat.pow_succ', ← Nat.pow_add]; congr 1; omega
    have e1 : 1 ≤ 2 ^ ((c - b).toNat - 1) := Nat.one_le_two_pow
    have e2 : 2 * 2 ^ (b + N).toNat ≤ 2 ^ (c + N).toNat := by rw [e]; exact Nat.le_mul_of_pos_right _ (by omega)
    have e3 : 1 ≤ 2 ^ (a + N).toNat := Nat.one_le_two_pow
    generalize 2 ^ (a + N).toNat = wa at *
    generalize 2 ^ (b + N).toNat = wb at *
    generalize 2 ^ (c + N).toNat = wc at *
    generalize 1 + A.length = k at *
    ring_nf
    nlinarith
  · have b1 := hb (-a) (by simp)
    have b2 := hb (-b) (by simp)
    rw [psi_append, psi_append, psi_append, psi_append]
    simp only [psi, List.length_append, List.length_cons, List.length_nil]
    have e : 2 ^ (a + N).toNat = 4 * 2 ^ (-a + N).toNat * 2 ^ ((2 * a).toNat - 2) := by
      rw [show 4 = 2 ^ 2 by rfl, ← Nat.pow_add, ← Nat.pow_add]; congr 1; omega
    have e1 : 1 ≤ 2 ^ ((2 * a).toNat - 2) := Nat.one_le_two_pow
    have e2 : 4 * 2 ^ (-a + N).toNat ≤ 2 ^ (a + N).toNat := by rw [e]; exact Nat.le_mul_of_pos_right _ (by omega)
    have e3 : 1 ≤ 2 ^ (-a + N).toNat := Nat.one_le_two_pow
    generalize 2 ^ (a + N).toNat = wa at *
    generalize 2 ^ (-a + N).toNat = wb at *
    generalize 2 ^ (-b + N).toNat = wc at *
    obtain ⟨k, hk⟩ : ∃ k, A.length = k := ⟨_, rfl⟩
    rw [hk]
    ring_nf
    nlinarith

theorem AtomLine.bound {l : List Int} (h : AtomLine y l) : ∀ v ∈ l, v.natAbs ≤ l.length := by
  obtain ⟨u, hu, -⟩ := h
  exact fun v hv => (((isOneline_iff l).1 (isOneline_of_construct hu)).2 v hv).2

theorem line_of_construct {l : List Int} {u : SPerm} (h : construct l = some u) : l = line u.call l.length := by
  obtain ⟨w, h1, -, h2⟩ := construct_of_isOneline (isOneline_of_construct h)
  rw [h] at h1; cases h1; exact h2

theorem construct_inj {l l' : List Int} {u : SPerm} (h : construct l = some u) (h' : construct l' = some u) (hl : l.length = l'.length) :
    l = l' := by
  rw [line_of_construct h, line_of_construct h', hl]

/-! ### the matching without one pair -/

theorem Mat.remove (hm : Mat y T) {a b : Int} (hab : T a b) (hmax : ∀ c d, T c d → d ≤ b) : Mat y (fun c d => T c d ∧ c ≠ a) := by
  refine ⟨fun c d h => hm.neg _ _ h.1, fun c d e f h h' => hm.uniq _ _ _ _ h.1 h'.1, fun c d e h h1 h2 h3 => ?_⟩
  obtain ⟨f, hf, f1, f2⟩ := hm.nest c d e h.1 h1 h2 h3
  have hd := hmax _ _ h.1
  rcases hf with hf | hf
  · refine ⟨f, .inl ⟨hf, fun e' => ?_⟩, f1, f2⟩
    subst e'
    have := hm.uniq _ _ _ _ hf hab; omega
  · refine ⟨f, .inr ⟨hf, fun e' => ?_⟩, f1, f2⟩
    subst e'
    have := hm.uniq _ _ _ _ hf hab; omega

theorem ends_remove (hm : Mat y T) {a b : Int} (hab : T a b) :
    ends y T = (ends y (fun c d => T c d ∧ c ≠ a)).filter (fun m => decide (m ≠ -a)) := by
  unfold ends
  rw [List.filter_filter]
  refine List.filter_congr (fun m _ => ?_)
  rw [Bool.eq_iff_iff]
  simp only [decide_eq_true_eq, Bool.and_eq_true]
  constructor
  · rintro ⟨h1, h2⟩
    refine ⟨fun e => ?_, h1, fun c hc => h2 c hc.1⟩
    rw [e] at h2
    exact h2 b (by rwa [neg_neg])
  · rintro ⟨h1, h2, h3⟩
    exact ⟨h2, fun c hc => h3 c ⟨hc, by omega⟩⟩

theorem fst_remove (hm : Mat y T) {a b : Int} (hab : T a b) {v m : Int} (h : m ≠ -b) :
    Fst y (fun c d => T c d ∧ c ≠ a) v m ↔ Fst y T v m := by
  constructor
  · rintro (h1 | h1)
    · exact .inl h1
    · exact .inr h1.1
  · rintro (h1 | h1)
    · exact .inl h1
    · refine .inr ⟨h1, fun e => ?_⟩
      subst e
      have := hm.uniq _ _ _ _ h1 hab; omega

theorem blk_remove (hm : Mat y T) {a b : Int} (hab : T a b) (hmax : ∀ c d, T c d → d ≤ b) {m : Int} (h : m ≠ -b) :
    blk y (fun c d => T c d ∧ c ≠ a) m = blk y T m := by
  have hm' := hm.remove hab hmax
  unfold blk
  congr 1
  by_cases hf : ∃ v, Fst y T v m
  · obtain ⟨v, hv⟩ := hf
    rw [pre_of_fst hm hv, pre_of_fst hm' ((fst_remove hm hab h).2 hv)]
  · push Not at hf
    rw [pre_of_not hf, pre_of_not (fun v hv => hf v ((fst_remove hm hab h).1 hv))]

theorem move_left {e : Int} {f : Int → List Int} (E P Q : List Int) (hE : ∀ m ∈ E, ∃ v, f m = [v, m] ∧ m < e ∧ e < v)
    (h : AtomLine y (P ++ E.flatMap f ++ [e] ++ Q)) : AtomLine y (P ++ [e] ++ E.flatMap f ++ Q) := by
  induction E using List.reverseRecOn generalizing Q with
  | nil => simpa using h
  | append_singleton E m ih =>
    obtain ⟨v, h1, h2, h3⟩ := hE m (by simp)
    rw [List.flatMap_append, List.flatMap_singleton, h1] at h ⊢
    have h4 : AtomLine y ((P ++ E.flatMap f) ++ [e, v, m] ++ Q) := by
      refine AtomLine.first ?_ h2 h3
      simpa using h
    have := ih ([v, m] ++ Q) (fun m hm => hE m (by simp [hm])) (by simpa using h4)
    simpa using this

/-- The matching with a pair is reached from the matching without it. -/
theorem gline_pred (hm : Mat y T) (hy : ∀ a, y.call (y.call a) = a) {a b : Int} (hab : T a b) (hmax : ∀ c d, T c d → d ≤ b) :
    ∃ l, AtomLine y l ∧ Step y l (gline y T) := by
  obtain ⟨p1, p2, p3, p4⟩ := hm.neg _ _ hab
  have hm' := hm.remove hab hmax
  obtain ⟨T', hT'⟩ : ∃ T' : Int → Int → Prop, T' = (fun c d => T c d ∧ c ≠ a) := ⟨_, rfl⟩
  rw [← hT'] at hm'
  have hT'' : ∀ c d, T' c d ↔ T c d ∧ c ≠ a := fun c d => by rw [hT']
  have n1 := (call_odd y).neg a
  have n2 := (call_odd y).neg b
  have rb : b.natAbs ≤ y.rank := by
    by_contra hc
    have := (call_odd y).out b (by omega); omega
  have eb : IsEnd y T' (-b) := ⟨⟨by omega, by omega, by omega⟩, fun c hc => by
    rw [neg_neg] at hc
    have := hm.uniq _ _ _ _ hab ((hT'' _ _).1 hc).1; omega⟩
  have ea : IsEnd y T' (-a) := ⟨⟨by omega, by omega, by omega⟩, fun c hc => by
    rw [neg_neg] at hc
    exact ((hT'' _ _).1 hc).2 rfl⟩
  obtain ⟨E1, R, h1⟩ := List.append_of_mem (mem_ends.2 ⟨by omega, eb⟩)
  have hs := sorted_ends (y := y) (T := T')
  have hmem := mem_ends.2 ⟨by omega, ea⟩
  rw [h1] at hs hmem
  have hmem2 : -a ∈ R := by
    rcases List.mem_append.1 hmem with hc | hc
    · have := (List.pairwise_append.1 hs).2.2 _ hc (-b) (by simp); omega
    · rcases List.mem_cons.1 hc with hc | hc
      · omega
      · exact hc
  obtain ⟨E2, E3, rfl⟩ := List.append_of_mem hmem2
  obtain ⟨s1, s2, s3⟩ := List.pairwise_append.1 hs
  obtain ⟨s4, s5⟩ := List.pairwise_cons.1 s2
  obtain ⟨s6, s7, s8⟩ := List.pairwise_append.1 s5
  obtain ⟨s9, s10⟩ := List.pairwise_cons.1 s7
  have q1 : ∀ m ∈ E1, m < -b := fun m h => s3 m h _ (by simp)
  have q2 : ∀ m ∈ E2, -b < m ∧ m < -a := fun m h => ⟨s4 m (by simp [h]), s8 m h _ (by simp)⟩
  have q3 : ∀ m ∈ E3, -a < m := fun m h => s9 m h
  have hE : ends y T = E1 ++ (-b) :: (E2 ++ E3) := by
    rw [ends_remove hm hab, ← hT', h1, List.filter_append, List.filter_cons, List.filter_append, List.filter_cons]
    rw [List.filter_eq_self.2 (fun m h => by have := q1 m h; simp only [decide_eq_true_eq]; omega),
      List.filter_eq_self.2 (fun m h => by have := q2 m h; simp only [decide_eq_true_eq]; omega),
      List.filter_eq_self.2 (fun m h => by have := q3 m h; simp only [decide_eq_true_eq]; omega)]
    rw [if_pos (by simp only [decide_eq_true_eq]; omega), if_neg (by simp)]
  have hb1 : ∀ m, m ≠ -b → blk y T' m = blk y T m := fun m h => by rw [hT']; exact blk_remove hm hab hmax h
  have hfl : ∀ E : List Int, (∀ m ∈ E, m ≠ -b) → E.flatMap (blk y T') = E.flatMap (blk y T) := fun E h =>
    List.flatMap_congr (fun m hm => hb1 m (h m hm))
  have f1 := hfl E1 (fun m h => by have := q1 m h; omega)
  have f2 := hfl E2 (fun m h => by have := q2 m h; omega)
  have f3 := hfl E3 (fun m h => by have := q3 m h; omega)
  have b1 : pre y T' (-b) = [] := pre_of_not (fun v hv => by
    rcases hv with hv | hv
    · omega
    · rw [neg_neg] at hv
      obtain ⟨h2, h3⟩ := (hT'' _ _).1 hv
      have := hm.uniq _ _ _ _ hab h2; omega)
  have b2 : pre y T' (-a) = [] := pre_of_not (fun v hv => by
    rcases hv with hv | hv
    · omega
    · rw [neg_neg] at hv
      obtain ⟨h2, h3⟩ := (hT'' _ _).1 hv
      have := hm.uniq _ _ _ _ hab h2; omega)
  have b3 : pre y T (-b) = [a] := pre_of_fst hm (.inr (by rwa [neg_neg]))
  have g0 : gline y T' = E1.flatMap (blk y T) ++ [-b] ++ E2.flatMap (blk y T) ++ [-a] ++ E3.flatMap (blk y T) := by
    unfold gline
    rw [h1, ← f1, ← f2, ← f3]
    simp [blk, b1, b2]
  have g1 : gline y T = E1.flatMap (blk y T) ++ [a, -b] ++ (E2.flatMap (blk y T) ++ E3.flatMap (blk y T)) := by
    unfold gline
    rw [hE]
    simp [blk, b3]
  obtain ⟨u0, c1, -, c2⟩ := gline_gm hm' hy
  have a0 : AtomLine y (gline y T') := ⟨u0, c1, c2.atom hy⟩
  obtain ⟨u1, c3, -, c4⟩ := gline_gm hm hy
  have a1 : AtomLine y (gline y T) := ⟨u1, c3, c4.atom hy⟩
  rw [g0] at a0
  have a2 := move_left E2 (E1.flatMap (blk y T) ++ [-b]) (E3.flatMap (blk y T)) (fun m h => by
    have h2 := q2 m h
    have h3 : IsEnd y T' m := (mem_ends.1 (by rw [h1]; simp [h])).2
    have h4 : ∃ v, Fst y T v m := by
      have h5 := h3.1.2
      have n3 := (call_odd y).neg m
      by_cases h6 : -m < y.call m
      · exact ⟨_, .inl ⟨by omega, h6, rfl⟩⟩
      · obtain ⟨d, hd, d1, d2⟩ := hm.nest a b (-m) hab (by omega) (by omega) (by omega)
        rcases hd with hd | hd
        · exact absurd ((hT'' _ _).2 ⟨hd, by omega⟩) (h3.2 d)
        · exact ⟨d, .inr hd⟩
    obtain ⟨v, hv⟩ := h4
    have := hv.pos hm
    exact ⟨v, by rw [blk, pre_of_fst hm hv]; rfl, by omega, by omega⟩) a0
  refine ⟨_, a2, .inr ⟨E1.flatMap (blk y T), E2.flatMap (blk y T) ++ E3.flatMap (blk y T), a, b, by simp, g1, p1, p2, fun v hv => ?_, a1⟩⟩
  obtain ⟨m, h2, h3⟩ := List.mem_flatMap.1 hv
  have h4 := q1 m h2
  rcases (mem_blk hm).1 h3 with h5 | h5 | h5
  · omega
  · omega
  · have := hmax _ _ h5; omega

/-! ### all atoms -/

/-- The first in the order of the code. -/
noncomputable def minLine (y : SPerm) : List Int := gline y (fun _ _ => False)

theorem mat_empty : Mat y (fun _ _ => False) :=
  ⟨fun _ _ h => h.elim, fun _ _ _ _ h => h.elim, fun _ _ _ h => h.elim⟩

theorem exists_max (hm : Mat y T) {a b : Int} (hab : T a b) : ∃ a b, T a b ∧ ∀ c d, T c d → d ≤ b := by
  by_contra hc
  push Not at hc
  have hb : ∀ a b, T a b → b ≤ y.rank := by
    intro a b h
    by_contra hc
    have := (call_odd y).out b (by omega)
    have := hm.neg _ _ h; omega
  have key : ∀ k : Nat, ∃ a b, T a b ∧ (k : Int) ≤ b := by
    intro k
    induction k with
    | zero => exact ⟨a, b, hab, by have := hm.neg _ _ hab; omega⟩
    | succ k ih =>
      obtain ⟨c, d, h1, h2⟩ := ih
      obtain ⟨e, f, h3, h4⟩ := hc c d h1
      exact ⟨e, f, h3, by omega⟩
  obtain ⟨c, d, h1, h2⟩ := key (y.rank + 1)
  have := hb _ _ h1
  omega

theorem atom_pred {l : List Int} (hl : AtomLine y l) (hr : l.length = y.rank) :
    l = minLine y ∨ ∃ l0, AtomLine y l0 ∧ Step y l0 l := by
  have hy : ∀ a, y.call (y.call a) = a := by
    obtain ⟨u, -, h⟩ := hl
    exact h.invol
  obtain ⟨u, hu, ha⟩ := id hl
  by_cases hn : NB (inverse u)
  · obtain ⟨T, hT⟩ := ha.gm hn
    have hlT : l = gline y T := by
      obtain ⟨u1, c3, -, c4⟩ := gline_gm hT.mat hy
      have h1 := hT.unique c4 hy
      have h2 : u = u1 := by rw [← inverse_inverse u, h1, inverse_inverse]
      rw [← h2] at c3
      exact construct_inj hu c3 (by rw [hr, length_gline hT.mat hy])
    by_cases he : ∃ a b, T a b
    · right
      obtain ⟨a, b, hab⟩ := he
      obtain ⟨a, b, hab, hmax⟩ := exists_max hT.mat hab
      rw [hlT]
      exact gline_pred hT.mat hy hab hmax
    · left
      push Not at he
      have : T = fun _ _ => False := by
        funext a b
        exact propext ⟨he a b, False.elim⟩
      rw [hlT, this]; rfl
  · right
    unfold NB at hn
    push Not at hn
    obtain ⟨a, b, c, h1, h2, h3, h4, h5⟩ := hn
    have e1 : u.call ((inverse u).call a) = a := call_inverse u a
    have e2 := call_inverse u b
    have e3 := call_inverse u c
    obtain ⟨k, hk⟩ : ∃ k : Nat, (inverse u).call a = (k : Int) + 1 := ⟨((inverse u).call a - 1).toNat, by omega⟩
    rw [h2, hk] at e2
    rw [h3, hk] at e3
    rw [hk] at e1
    rw [construct_lineCall hu] at e1 e2 e3
    have hodd := lineCall_odd (isOneline_of_construct hu)
    have hlen : k + 2 < l.length := by
      by_contra hc
      rw [lineCall_big _ (by omega)] at e3
      have := hodd.bound (k + 1)
      by_cases hc' : l.length < k + 1
      · rw [lineCall_big _ (by omega)] at e1; omega
      · have := hodd.bound ((k : Int) + 1) (by omega)
        omega
    have f1 := lineCall_nat l (k := k) (by omega)
    have f2 := lineCall_nat l (k := k + 1) (by omega)
    have f3 := lineCall_nat l (k := k + 2) (by omega)
    push_cast at f2 f3
    have g1 : l[k] = a := by omega
    have g2 : l[k + 1] = b := by omega
    have g3 : l[k + 2] = c := by
      rw [← f3, ← e3]; congr 1
    have hab : a ≠ b := fun e => by rw [e] at h2; omega
    have hsplit : l = l.take k ++ [a, b, c] ++ l.drop (k + 3) := by
      have d1 := List.drop_eq_getElem_cons (l := l) (i := k) (by omega)
      have d2 := List.drop_eq_getElem_cons (l := l) (i := k + 1) (by omega)
      have d3 := List.drop_eq_getElem_cons (l := l) (i := k + 2) (by omega)
      rw [g1, d2, g2, d3, g3] at d1
      have := List.take_append_drop k l
      rw [d1] at this
      simpa using this.symm
    rw [hsplit] at hl ⊢
    rcases lt_or_ge a b with hlt | hge
    · exact ⟨_, hl.first_rev h4 hlt, .inl ⟨_, _, c, a, b, rfl, rfl, h4, hlt⟩⟩
    · exact (hl.not_three h5 (by omega)).elim

theorem atom_reach {l : List Int} (hl : AtomLine y l) (hr : l.length = y.rank) : Relation.ReflTransGen (Step y) (minLine y) l := by
  induction h : psi y.rank 1 l using Nat.strong_induction_on generalizing l with
  | _ k ih =>
    rcases atom_pred hl hr with h1 | ⟨l0, h1, h2⟩
    · rw [h1]
    · have h3 := h2.length
      have h4 := psi_lt (N := y.rank) h2 (fun v hv => by have := h1.bound v hv; omega)
      exact (ih _ (by omega) h1 (by omega) rfl).tail h2

theorem minLine_atom (hy : ∀ a, y.call (y.call a) = a) : AtomLine y (minLine y) ∧ (minLine y).length = y.rank := by
  obtain ⟨u, c1, -, c2⟩ := gline_gm (mat_empty (y := y)) hy
  exact ⟨⟨u, c1, c2.atom hy⟩, length_gline mat_empty hy⟩

end Verif.Perm
