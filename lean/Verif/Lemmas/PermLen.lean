import Verif.Lemmas.Perm
import Mathlib.Data.Finset.Prod
import Mathlib.Order.Interval.Finset.Basic
import Mathlib.Data.Finset.Card
import Mathlib.Data.List.Nodup
import Mathlib.Data.List.ProdSigma
import Mathlib.Data.Finset.Sort

/-! Length and descents of signed permutations. -/

namespace Verif.Perm

attribute [-simp] List.getD_eq_getElem?_getD

/-- Inversions `a < b`, `f a > f b` with `a, b` nonzero and of absolute value at most `N`. -/
def invs (N : Nat) (f : Int → Int) : Finset (Int × Int) :=
  ((Finset.Icc (-(N : Int)) N) ×ˢ (Finset.Icc (-(N : Int)) N)).filter
    (fun p => p.1 ≠ 0 ∧ p.2 ≠ 0 ∧ p.1 < p.2 ∧ f p.1 > f p.2)

/-- Positive numbers up to `N` with negative image. -/
def negs (N : Nat) (f : Int → Int) : Finset Int := (Finset.Icc 1 (N : Int)).filter (fun a => f a < 0)

theorem mem_invs {N f a b} : (a, b) ∈ invs N f ↔
    (a.natAbs ≤ N ∧ b.natAbs ≤ N) ∧ a ≠ 0 ∧ b ≠ 0 ∧ a < b ∧ f a > f b := by
  simp only [invs, Finset.mem_filter, Finset.mem_product, Finset.mem_Icc]
  constructor
  · rintro ⟨⟨h1, h2⟩, h⟩; exact ⟨⟨by omega, by omega⟩, h⟩
  · rintro ⟨⟨h1, h2⟩, h⟩; exact ⟨⟨⟨by omega, by omega⟩, ⟨by omega, by omega⟩⟩, h⟩

theorem mem_negs {N f a} : a ∈ negs N f ↔ 1 ≤ a ∧ a ≤ N ∧ f a < 0 := by
  simp [negs, Finset.mem_filter, Finset.mem_Icc, and_assoc]

theorem invs_mono {f : Int → Int} {N M : Nat} (h : Odd f N) (hNM : N ≤ M) : invs M f = invs N f := by
  ext ⟨a, b⟩
  rw [mem_invs, mem_invs]
  refine and_congr_left (fun hab => ⟨fun _ => ?_, fun h => by omega⟩)
  obtain ⟨_, _, hlt, hgt⟩ := hab
  have ha1 := h.bound a
  have ha2 := h.out a
  have hb1 := h.bound b
  have hb2 := h.out b
  by_cases haN : a.natAbs ≤ N <;> by_cases hbN : b.natAbs ≤ N
  · exact ⟨haN, hbN⟩
  · have := ha1 haN; have := hb2 (by omega); omega
  · have := hb1 hbN; have := ha2 (by omega); omega
  · have := hb2 (by omega); have := ha2 (by omega); omega

theorem negs_mono {f : Int → Int} {N M : Nat} (h : Odd f N) (hNM : N ≤ M) : negs M f = negs N f := by
  ext a
  rw [mem_negs, mem_negs]
  constructor
  · rintro ⟨h1, h2, h3⟩
    refine ⟨h1, ?_, h3⟩
    by_contra hc
    rw [h.out a (by omega)] at h3
    omega
  · rintro ⟨h1, h2, h3⟩
    exact ⟨h1, by omega, h3⟩

/-! ### connection with the lists of the code -/

/-- The position of index `i` of `biline`. -/
def pos (n i : Nat) : Int := if i < n then (i : Int) - n else (i : Int) - n + 1

theorem getD_biline (w : SPerm) {i : Nat} (hi : i < w.rank * 2) : (biline w).getD i 0 = w.call (pos w.rank i) := by
  have hr : w.rank = w.oneline.length := rfl
  rw [biline, call_eq, lineCall, pos]
  by_cases h : i < w.rank
  · rw [if_pos h, List.getD_append _ _ _ _ (by simp; omega), List.getD_eq_getElem _ _ (by simp; omega),
      if_neg (by omega), if_pos (by omega), List.getD_eq_getElem _ _ (by omega), List.getElem_map, List.getElem_reverse]
    congr 2
    omega
  · rw [if_neg h, List.getD_append_right _ _ _ _ (by simp; omega), if_pos (by omega)]
    congr 1
    simp
    omega

theorem invCount_eq (w : SPerm) : invCount w = (invs w.rank w.call).card := by
  classical
  rw [invCount]
  set L := ((List.range (w.rank * 2)).flatMap (fun i =>
    ((List.range (w.rank * 2)).filter (fun j => i < j ∧ (biline w).getD i 0 > (biline w).getD j 0)).map
      (fun j => (i, j)))) with hL
  have hmem : ∀ i j, (i, j) ∈ L ↔ i < w.rank * 2 ∧ j < w.rank * 2 ∧ i < j ∧
      w.call (pos w.rank i) > w.call (pos w.rank j) := by
    intro i j
    simp only [hL, List.mem_flatMap, List.mem_map, List.mem_filter, List.mem_range, Prod.mk.injEq, decide_eq_true_eq]
    constructor
    · rintro ⟨a, ha, b, ⟨hb, hab, hgt⟩, rfl, rfl⟩
      rw [getD_biline w ha, getD_biline w hb] at hgt
      exact ⟨ha, hb, hab, hgt⟩
    · rintro ⟨h1, h2, h3, h4⟩
      refine ⟨i, h1, j, ⟨h2, h3, ?_⟩, rfl, rfl⟩
      rw [getD_biline w h1, getD_biline w h2]
      exact h4
  have hnd : L.Nodup := by
    rw [hL, List.nodup_flatMap]
    refine ⟨fun i _ => ((List.nodup_range).filter _).map (fun a b h => (Prod.mk.injEq _ _ _ _ ▸ h).2), ?_⟩
    refine List.Pairwise.imp ?_ (List.nodup_range (n := w.rank * 2))
    intro a b hab
    rw [Function.onFun, List.disjoint_left]
    rintro ⟨x, y⟩ h1 h2
    simp only [List.mem_map, Prod.mk.injEq] at h1 h2
    obtain ⟨_, _, rfl, _⟩ := h1
    obtain ⟨_, _, h, _⟩ := h2
    exact hab h.symm
  rw [← List.toFinset_card_of_nodup hnd]
  refine Finset.card_bij (fun p _ => (pos w.rank p.1, pos w.rank p.2)) ?_ ?_ ?_
  · rintro ⟨i, j⟩ h
    rw [List.mem_toFinset, hmem] at h
    obtain ⟨h1, h2, h3, h4⟩ := h
    rw [mem_invs]
    refine ⟨?_, ?_, ?_, ?_, h4⟩ <;> unfold pos <;> (repeat' split) <;> omega
  · rintro ⟨i, j⟩ _ ⟨i', j'⟩ _ h
    simp only [Prod.mk.injEq] at h ⊢
    unfold pos at h
    (repeat' split at h) <;> omega
  · rintro ⟨a, b⟩ h
    rw [mem_invs] at h
    obtain ⟨⟨h1, h2⟩, h3, h4, h5, h6⟩ := h
    have hp : ∀ a : Int, a ≠ 0 → a.natAbs ≤ w.rank → ∃ i : Nat, i < w.rank * 2 ∧ pos w.rank i = a := by
      intro a ha hN
      by_cases h0 : a < 0
      · exact ⟨(a + w.rank).toNat, by omega, by unfold pos; split <;> omega⟩
      · exact ⟨(a + w.rank - 1).toNat, by omega, by unfold pos; split <;> omega⟩
    obtain ⟨i, hi, rfl⟩ := hp a h3 h1
    obtain ⟨j, hj, rfl⟩ := hp b h4 h2
    refine ⟨(i, j), ?_, rfl⟩
    rw [List.mem_toFinset, hmem]
    refine ⟨hi, hj, ?_, h6⟩
    unfold pos at h5
    (repeat' split at h5) <;> omega

theorem invZero_eq (w : SPerm) : invZero w = (negs w.rank w.call).card := by
  rw [invZero]
  have hl : w.oneline = (List.range w.rank).map (fun k : Nat => w.call ((k : Int) + 1)) := by
    refine List.ext_getElem (by simp [SPerm.rank]) (fun k h1 h2 => ?_)
    rw [List.getElem_map, List.getElem_range, call_eq, lineCall, if_pos (by omega), List.getD_eq_getElem _ _ (by omega)]
    congr 1
    omega
  conv_lhs => rw [hl]
  rw [List.filter_map, List.length_map, ← List.toFinset_card_of_nodup ((List.nodup_range).filter _)]
  refine Finset.card_bij (fun k _ => (k : Int) + 1) ?_ ?_ ?_
  · intro k hk
    simp only [List.mem_toFinset, List.mem_filter, List.mem_range, Function.comp_apply, decide_eq_true_eq] at hk
    rw [mem_negs]
    exact ⟨by omega, by omega, hk.2⟩
  · intro a _ b _ h; omega
  · intro a ha
    rw [mem_negs] at ha
    refine ⟨(a - 1).toNat, ?_, by omega⟩
    simp only [List.mem_toFinset, List.mem_filter, List.mem_range, Function.comp_apply, decide_eq_true_eq]
    refine ⟨by omega, ?_⟩
    rw [show (((a - 1).toNat : Nat) : Int) + 1 = a by omega]
    exact ha.2.2

/-! ### descents -/

/-- The letters `lo i` and `i + 1` exchanged by `s_i`. -/
def lo (i : Nat) : Int := if i = 0 then -1 else i

/-- `i` is a right descent of the function `f`. -/
def Desc (f : Int → Int) (i : Nat) : Prop := f (lo i) > f ((i : Int) + 1)

theorem mem_rightDescents (w : SPerm) (i : Nat) : i ∈ rightDescents w ↔ Desc w.call i := by
  have hw := call_odd w
  rw [rightDescents, List.mem_append, List.mem_filter, List.mem_range, Desc, lo]
  by_cases h0 : i = 0
  · subst h0
    rw [if_pos rfl]
    have h1 : w.call (-1) = -w.call 1 := hw.neg 1
    simp only [Nat.cast_zero, zero_add]
    rw [h1]
    constructor
    · rintro (h | h)
      · split at h
        · rename_i h; omega
        · simp at h
      · simp at h
    · intro h
      left
      have : 1 ≤ w.rank := by
        by_contra hc
        rw [hw.out 1 (by omega)] at h
        omega
      rw [if_pos ⟨this, by omega⟩]
      simp
  · rw [if_neg h0]
    simp only [decide_eq_true_eq]
    constructor
    · rintro (h | h)
      · split at h
        · simp at h; omega
        · simp at h
      · exact h.2.2
    · intro h
      right
      refine ⟨?_, by omega, h⟩
      by_contra hc
      have h1 := hw.bound i
      have h2 := hw.out i
      rw [hw.out ((i : Int) + 1) (by omega)] at h
      by_cases h3 : (i : Int).natAbs ≤ w.rank
      · have := h1 h3; omega
      · rw [h2 (by omega)] at h; omega

theorem rightDescents_nodup (w : SPerm) : (rightDescents w).Nodup := by
  rw [rightDescents, List.nodup_append]
  refine ⟨by split <;> simp, (List.nodup_range).filter _, ?_⟩
  intro a ha b hb
  split at ha
  · simp only [List.mem_singleton, List.mem_filter, decide_eq_true_eq] at ha hb; omega
  · simp at ha

theorem odd_comp_s {f : Int → Int} {N : Nat} (h : Odd f N) {i : Nat} (hi : i + 1 ≤ N) : Odd (fun a => f (sFun i a)) N := by
  have hs := (sFun_odd i).mono hi
  exact ⟨fun a => by rw [hs.neg, h.neg], fun a b hab => hs.inj _ _ (h.inj _ _ hab),
    fun a ha => h.bound _ (hs.bound a ha), fun a ha => by rw [hs.out a ha, h.out a ha]⟩

theorem desc_comp_s (f : Int → Int) (i : Nat) : Desc (fun a => f (sFun i a)) i ↔ f ((i : Int) + 1) > f (lo i) := by
  have h1 : sFun i (lo i) = (i : Int) + 1 := by unfold sFun lo; (repeat' split) <;> omega
  have h2 : sFun i ((i : Int) + 1) = lo i := by unfold sFun lo; (repeat' split) <;> omega
  rw [Desc, h1, h2]

theorem lo_ne (i : Nat) : lo i ≠ (i : Int) + 1 := by unfold lo; split <;> omega

/-- `s_i` keeps the order of all pairs except the exchanged ones. -/
theorem sFun_lt {i : Nat} {a b : Int} (h : a < b) (ha : a ≠ 0) (hb : b ≠ 0) (h1 : ¬ (a = lo i ∧ b = i + 1))
    (h2 : ¬ (a = -(i + 1) ∧ b = -lo i)) : sFun i a < sFun i b := by
  unfold lo at h1 h2
  unfold sFun
  by_cases h0 : i = 0
  · simp only [h0, if_true] at h1 h2 ⊢
    (repeat' split) <;> omega
  · simp only [h0, if_false] at h1 h2 ⊢
    (repeat' split) <;> omega

theorem sFun_lo (i : Nat) : sFun i (lo i) = (i : Int) + 1 := by unfold sFun lo; (repeat' split) <;> omega
theorem sFun_hi (i : Nat) : sFun i ((i : Int) + 1) = lo i := by unfold sFun lo; (repeat' split) <;> omega

/-- The inversions without the exchanged pairs. -/
theorem invs_bij {f : Int → Int} {N : Nat} (h : Odd f N) {i : Nat} (hi : i + 1 ≤ N)
    (hlt : f (lo i) < f ((i : Int) + 1)) :
    (((invs N (fun a => f (sFun i a))).erase (-((i : Int) + 1), -lo i)).erase (lo i, ((i : Int) + 1))).card =
      (invs N f).card := by
  have hs := (sFun_odd i).mono hi
  have hn1 := h.neg (lo i)
  have hn2 := h.neg ((i : Int) + 1)
  refine Finset.card_bij' (fun p _ => (sFun i p.1, sFun i p.2)) (fun p _ => (sFun i p.1, sFun i p.2)) ?_ ?_
    (fun p _ => by simp) (fun p _ => by simp)
  · rintro ⟨a, b⟩ hab
    rw [Finset.mem_erase, Finset.mem_erase, mem_invs] at hab
    obtain ⟨hne, hne2, ⟨h1, h2⟩, h3, h4, h5, h6⟩ := hab
    rw [mem_invs]
    refine ⟨⟨hs.bound a h1, hs.bound b h2⟩, hs.ne_zero h3, hs.ne_zero h4, ?_, h6⟩
    exact sFun_lt h5 h3 h4 (fun hc => hne (Prod.ext hc.1 hc.2)) (fun hc => hne2 (Prod.ext hc.1 hc.2))
  · rintro ⟨a, b⟩ hab
    rw [mem_invs] at hab
    obtain ⟨⟨h1, h2⟩, h3, h4, h5, h6⟩ := hab
    have hne' : ¬ (a = lo i ∧ b = i + 1) := by rintro ⟨rfl, rfl⟩; omega
    have hne2' : ¬ (a = -(i + 1) ∧ b = -lo i) := by rintro ⟨rfl, rfl⟩; omega
    have hlt' := sFun_lt h5 h3 h4 hne' hne2'
    rw [Finset.mem_erase, Finset.mem_erase, mem_invs]
    refine ⟨?_, ?_, ⟨hs.bound a h1, hs.bound b h2⟩, hs.ne_zero h3, hs.ne_zero h4, hlt', by simpa using h6⟩
    · intro hc
      simp only [Prod.mk.injEq] at hc
      obtain ⟨e1, e2⟩ := hc
      have ha : a = (i : Int) + 1 := by rw [← sFun_lo i, ← e1, sFun_sFun]
      have hb : b = lo i := by rw [← sFun_hi i, ← e2, sFun_sFun]
      unfold lo at hb
      split at hb <;> omega
    · intro hc
      simp only [Prod.mk.injEq] at hc
      obtain ⟨e1, e2⟩ := hc
      have ha : a = -lo i := by rw [← sFun_hi i, ← hs.neg, ← e1, sFun_sFun]
      have hb : b = -((i : Int) + 1) := by rw [← sFun_lo i, ← hs.neg, ← e2, sFun_sFun]
      unfold lo at ha
      split at ha <;> omega

theorem mem_invs_hi {f : Int → Int} {N : Nat} {i : Nat} (hi : i + 1 ≤ N)
    (hlt : f (lo i) < f ((i : Int) + 1)) : (lo i, ((i : Int) + 1)) ∈ invs N (fun a => f (sFun i a)) := by
  rw [mem_invs, sFun_lo, sFun_hi]
  refine ⟨⟨?_, by omega⟩, ?_, by omega, ?_, hlt⟩ <;> unfold lo <;> split <;> omega

theorem mem_invs_lo {f : Int → Int} {N : Nat} (h : Odd f N) {i : Nat} (hi : i + 1 ≤ N)
    (hlt : f (lo i) < f ((i : Int) + 1)) : (-((i : Int) + 1), -lo i) ∈ invs N (fun a => f (sFun i a)) := by
  have hs := (sFun_odd i).mono hi
  rw [mem_invs, hs.neg, hs.neg, sFun_lo, sFun_hi, h.neg, h.neg]
  refine ⟨⟨by omega, ?_⟩, by omega, ?_, ?_, by omega⟩ <;> unfold lo <;> split <;> omega

/-- Adding a descent adds two to the number of inversions plus the number of negated letters. -/
theorem card_comp_s {f : Int → Int} {N : Nat} (h : Odd f N) {i : Nat} (hi : i + 1 ≤ N) (hd : ¬ Desc f i) :
    (invs N (fun a => f (sFun i a))).card + (negs N (fun a => f (sFun i a))).card =
      (invs N f).card + (negs N f).card + 2 ∧
    ((invs N (fun a => f (sFun i a))).card % 2 = (negs N (fun a => f (sFun i a))).card % 2 ↔
      (invs N f).card % 2 = (negs N f).card % 2) := by
  have hlt : f (lo i) < f ((i : Int) + 1) := by
    rw [Desc] at hd
    have : f (lo i) ≠ f ((i : Int) + 1) := fun he => lo_ne i (h.inj _ _ he)
    omega
  have hbij := invs_bij h hi hlt
  have hD1 := mem_invs_hi hi hlt
  have hD2 := mem_invs_lo h hi hlt
  by_cases h0 : i = 0
  · have hpe : ((-((i : Int) + 1), -lo i) : Int × Int) = (lo i, ((i : Int) + 1)) := by
      subst h0; rfl
    rw [hpe, Finset.erase_idem] at hbij
    have hinv : (invs N (fun a => f (sFun i a))).card = (invs N f).card + 1 := by
      rw [← hbij, Finset.card_erase_add_one hD1]
    have hneg : (negs N (fun a => f (sFun i a))).card = (negs N f).card + 1 := by
      subst h0
      have hlt1 : f (-1) < f 1 := by simpa [lo] using hlt
      have hn1 := h.neg 1
      have hno : (1 : Int) ∉ negs N f := by rw [mem_negs]; omega
      have : negs N (fun a => f (sFun 0 a)) = insert 1 (negs N f) := by
        ext a
        rw [Finset.mem_insert, mem_negs, mem_negs]
        by_cases ha : a = 1
        · subst ha
          simp only [true_or, iff_true]
          refine ⟨by omega, by omega, ?_⟩
          have : sFun 0 1 = -1 := by simp [sFun]
          rw [this]; omega
        · by_cases ha1 : 1 ≤ a
          · have : sFun 0 a = a := by unfold sFun; (repeat' split) <;> omega
            simp only [this, ha, false_or]
          · omega
      rw [this, Finset.card_insert_of_notMem hno]
    omega
  · have hinv : (invs N (fun a => f (sFun i a))).card = (invs N f).card + 2 := by
      have hD1' : (lo i, ((i : Int) + 1)) ∈ (invs N (fun a => f (sFun i a))).erase (-((i : Int) + 1), -lo i) := by
        rw [Finset.mem_erase]
        refine ⟨?_, hD1⟩
        simp only [ne_eq, Prod.mk.injEq]
        unfold lo
        rw [if_neg h0]
        omega
      rw [← hbij, ← Finset.card_erase_add_one hD2, ← Finset.card_erase_add_one hD1']
    have hneg : (negs N (fun a => f (sFun i a))).card = (negs N f).card := by
      refine Finset.card_bij' (fun p _ => sFun i p) (fun p _ => sFun i p) ?_ ?_ (fun p _ => by simp) (fun p _ => by simp)
      · intro a ha
        rw [mem_negs] at ha ⊢
        refine ⟨?_, ?_, ha.2.2⟩ <;> unfold sFun <;> rw [if_neg h0] <;> (repeat' split) <;> omega
      · intro a ha
        rw [mem_negs] at ha ⊢
        refine ⟨?_, ?_, by simpa using ha.2.2⟩ <;> unfold sFun <;> rw [if_neg h0] <;> (repeat' split) <;> omega
    omega

/-! ### length -/

/-- Twice the length. -/
def len2 (w : SPerm) : Nat := invCount w + invZero w

theorem len2_eq (w : SPerm) {N : Nat} (h : w.rank ≤ N) : len2 w = (invs N w.call).card + (negs N w.call).card := by
  rw [len2, invCount_eq, invZero_eq, invs_mono (call_odd w) h, negs_mono (call_odd w) h]

theorem call_mul_s (w : SPerm) (i : Nat) : (mul w (s i)).call = fun a => w.call (sFun i a) := by
  funext a; simp

theorem rank_le_of_odd {w : SPerm} {N : Nat} (h : Odd w.call N) : w.rank ≤ N := by
  by_contra hc
  have h1 : w.call (w.rank : Int) = w.rank := h.out _ (by omega)
  apply w.trimmed
  rw [List.getLast?_eq_getElem?]
  rw [call_eq, lineCall] at h1
  have hr : w.rank = w.oneline.length := rfl
  rw [if_pos (by omega), List.getD_eq_getElem _ _ (by omega)] at h1
  rw [List.getElem?_eq_getElem (by omega)]
  congr 1
  simp only [show ((w.rank : Int) - 1).toNat = w.oneline.length - 1 by omega] at h1
  exact h1

/-- Multiplying by a generator that is not a descent. -/
theorem len2_mul_s {w : SPerm} {i : Nat} (hd : ¬ Desc w.call i) : len2 (mul w (s i)) = len2 w + 2 ∧
    (invCount (mul w (s i)) % 2 = invZero (mul w (s i)) % 2 ↔ invCount w % 2 = invZero w % 2) := by
  have hw := (call_odd w).mono (le_max_left w.rank (i + 1))
  have h1 := card_comp_s hw (le_max_right w.rank (i + 1)) hd
  have ho := odd_comp_s hw (i := i) (le_max_right w.rank (i + 1))
  rw [← call_mul_s] at ho h1
  have hr := rank_le_of_odd ho
  rw [len2_eq _ hr, len2_eq w (le_max_left w.rank (i + 1)), invCount_eq, invZero_eq, invCount_eq, invZero_eq,
    ← invs_mono (call_odd w) (le_max_left w.rank (i + 1)), ← negs_mono (call_odd w) (le_max_left w.rank (i + 1)),
    ← invs_mono (call_odd (mul w (s i))) hr, ← negs_mono (call_odd (mul w (s i))) hr]
  exact h1

theorem desc_mul_s (w : SPerm) (i : Nat) : Desc (mul w (s i)).call i ↔ ¬ Desc w.call i := by
  rw [call_mul_s, desc_comp_s, Desc]
  have : w.call (lo i) ≠ w.call ((i : Int) + 1) := fun he => lo_ne i ((call_odd w).inj _ _ he)
  omega

/-- A permutation without right descents is the identity. -/
theorem eq_identity_of_no_desc {w : SPerm} (h : ∀ i, ¬ Desc w.call i) : w = identity := by
  have hw := call_odd w
  have hpos : 0 < w.call 1 := by
    have h0 := h 0
    rw [Desc, lo, if_pos rfl] at h0
    simp only [Nat.cast_zero, zero_add] at h0
    have := hw.neg 1
    have := hw.ne_zero (i := 1) (by omega)
    omega
  have hstep : ∀ i : Nat, 1 ≤ i → w.call i < w.call ((i : Int) + 1) := by
    intro i hi
    have h1 := h i
    rw [Desc, lo, if_neg (by omega)] at h1
    have : w.call (i : Int) ≠ w.call ((i : Int) + 1) := fun he => by have := hw.inj _ _ he; omega
    omega
  have hge : ∀ i : Nat, ((i : Int) + 1) ≤ w.call ((i : Int) + 1) := by
    intro i
    induction i with
    | zero => simp only [Nat.cast_zero, zero_add]; omega
    | succ i ih =>
      have := hstep (i + 1) (by omega)
      push_cast at this ⊢
      omega
  have hle : ∀ d i : Nat, i + d = w.rank → 1 ≤ i → w.call i ≤ i := by
    intro d
    induction d with
    | zero =>
      intro i hi _
      have := hw.bound (i : Int) (by omega)
      omega
    | succ d ih =>
      intro i hi h1
      have h2 := ih (i + 1) (by omega) (by omega)
      have h3 := hstep i h1
      push_cast at h2
      omega
  have hpos' : ∀ a : Int, 0 < a → w.call a = a := by
    intro a ha
    by_cases h1 : a ≤ w.rank
    · have h2 := hge (a - 1).toNat
      have h3 := hle (w.rank - a.toNat) a.toNat (by omega) (by omega)
      rw [show (((a - 1).toNat : Nat) : Int) + 1 = a by omega] at h2
      rw [show ((a.toNat : Nat) : Int) = a by omega] at h3
      omega
    · exact hw.out a (by omega)
  apply ext_call
  intro a
  rw [call_identity]
  rcases lt_trichotomy a 0 with h | h | h
  · have := hpos' (-a) (by omega)
    rw [hw.neg] at this
    omega
  · subst h; exact hw.zero
  · exact hpos' a h

theorem len2_identity : len2 identity = 0 := by decide

theorem parity (w : SPerm) : invCount w % 2 = invZero w % 2 := by
  induction hn : len2 w using Nat.strong_induction_on generalizing w with
  | _ n ih =>
    by_cases h : ∀ i, ¬ Desc w.call i
    · rw [eq_identity_of_no_desc h]; decide
    · push Not at h
      obtain ⟨i, hi⟩ := h
      have h1 : ¬ Desc (mul w (s i)).call i := by rw [desc_mul_s]; simpa using hi
      obtain ⟨h2, h3⟩ := len2_mul_s h1
      rw [mul_s_s] at h2 h3
      exact h3.2 (ih _ (by omega) _ rfl)

theorem len?_eq (w : SPerm) : len? w = some (len w) := by
  rw [len, len?, if_pos (parity w)]; rfl

theorem two_len (w : SPerm) : 2 * len w = len2 w := by
  rw [len, len?, if_pos (parity w), Option.getD_some, len2]
  have := parity w
  omega

theorem len_mul_s_of_not {w : SPerm} {i : Nat} (h : ¬ Desc w.call i) : len (mul w (s i)) = len w + 1 := by
  have h1 := (len2_mul_s h).1
  rw [← two_len, ← two_len] at h1
  omega

theorem len_mul_s_of_desc {w : SPerm} {i : Nat} (h : Desc w.call i) : len w = len (mul w (s i)) + 1 := by
  have h1 : ¬ Desc (mul w (s i)).call i := by rw [desc_mul_s]; simpa using h
  have h2 := len_mul_s_of_not h1
  rwa [mul_s_s] at h2

theorem len_identity : len identity = 0 := by decide

theorem len_eq_zero {w : SPerm} : len w = 0 ↔ w = identity := by
  constructor
  · intro h
    apply eq_identity_of_no_desc
    intro i hi
    have := len_mul_s_of_desc hi
    omega
  · rintro rfl; exact len_identity

theorem len_inverse (w : SPerm) : len (inverse w) = len w := by
  have hr : ∀ w : SPerm, (inverse w).rank ≤ w.rank := by
    intro w
    apply rank_le_of_odd
    refine ⟨(call_odd _).neg, (call_odd _).inj, fun i hi => ?_, fun i hi => ?_⟩
    · by_contra hc
      have := call_inverse w i
      rw [(call_odd w).out _ (by omega)] at this
      omega
    · have := inverse_call w i
      rwa [(call_odd w).out i hi] at this
  have hw := call_odd w
  have hv := call_odd (inverse w)
  have hbv : ∀ i : Int, i.natAbs ≤ w.rank → ((inverse w).call i).natAbs ≤ w.rank := (hv.mono (hr w)).bound
  have h2 : len2 (inverse w) = len2 w := by
    rw [len2_eq (inverse w) (hr w), len2_eq w (le_refl _)]
    congr 1
    · refine Finset.card_bij' (fun p _ => ((inverse w).call p.2, (inverse w).call p.1))
        (fun p _ => (w.call p.2, w.call p.1)) ?_ ?_ (fun p _ => by simp) (fun p _ => by simp)
      · rintro ⟨a, b⟩ h
        rw [mem_invs] at h ⊢
        obtain ⟨⟨h1, h2⟩, h3, h4, h5, h6⟩ := h
        exact ⟨⟨hbv _ h2, hbv _ h1⟩, hv.ne_zero h4, hv.ne_zero h3, h6, by simpa using h5⟩
      · rintro ⟨a, b⟩ h
        rw [mem_invs] at h ⊢
        obtain ⟨⟨h1, h2⟩, h3, h4, h5, h6⟩ := h
        exact ⟨⟨hw.bound _ h2, hw.bound _ h1⟩, hw.ne_zero h4, hw.ne_zero h3, h6, by simpa using h5⟩
    · refine Finset.card_bij' (fun p _ => -(inverse w).call p) (fun p _ => -w.call p) ?_ ?_
        (fun p _ => by simp [hw.neg]) (fun p _ => by simp [hv.neg])
      · intro a h
        rw [mem_negs] at h ⊢
        have := hbv a (by omega)
        rw [hw.neg, call_inverse]
        omega
      · intro a h
        rw [mem_negs] at h ⊢
        have := hw.bound a (by omega)
        rw [hv.neg, inverse_call]
        omega
  rw [← two_len, ← two_len] at h2
  omega

end Verif.Perm
