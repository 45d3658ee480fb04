import Verif.Model.PermMore
import Verif.Lemmas.Reflections
import Verif.Lemmas.Fpf
import Mathlib.Data.List.Rotate

/-! # Lemmas for property C61: cycles, powers and the star operation -/

namespace Verif.Perm

attribute [local irreducible] mul s inverse identity len mod act

attribute [-simp] List.getD_eq_getElem?_getD

/-! ### the constructor -/

theorem isOneline_of_dropLast {l : List Int} (h : l ≠ [] ∧ l.getLast? = some (l.length : Int)) (ho : isOneline l.dropLast = true) :
    isOneline l = true := by
  have hl := List.length_pos_iff.2 h.1
  have h0 := (isOneline_iff _).1 ho
  rw [List.length_dropLast] at h0
  have hmem : ∀ x, x ∈ l ↔ x ∈ l.dropLast ∨ x = (l.length : Int) := by
    intro x
    have h2 := h.2
    rw [List.getLast?_eq_some_getLast h.1, Option.some.injEq] at h2
    conv => lhs; rw [← List.dropLast_append_getLast h.1, List.mem_append, List.mem_singleton, h2]
  rw [isOneline_iff]
  constructor
  · intro k hk
    by_cases hk' : k < l.length - 1
    · obtain ⟨a, ha, hak⟩ := h0.1 k hk'
      exact ⟨a, (hmem a).2 (Or.inl ha), hak⟩
    · exact ⟨l.length, (hmem _).2 (Or.inr rfl), by omega⟩
  · intro a ha
    rcases (hmem a).1 ha with h1 | rfl
    · have := h0.2 a h1; omega
    · omega

theorem isOneline_of_trim (l : List Int) (h : isOneline (trimLine l) = true) : isOneline l = true := by
  rw [trimLine_eq] at h
  split at h
  · rename_i hc
    exact isOneline_of_dropLast hc (isOneline_of_trim _ h)
  · exact h
termination_by l.length
decreasing_by
  rename_i h
  have := List.length_pos_iff.2 h.1
  simp; omega

theorem construct_eq_none {l : List Int} (h : isOneline l = false) : construct l = none := by
  rw [construct, dif_neg]
  intro hc
  rw [isOneline_of_trim l hc] at h
  cases h

theorem oneline_eq_line (w : SPerm) : w.oneline = line w.call w.rank := by
  refine List.ext_getElem (by rw [length_line]; rfl) (fun k h1 h2 => ?_)
  have hr : w.rank = w.oneline.length := rfl
  rw [getElem_line, SPerm.call, if_pos (by omega), show ((k : Int) + 1 - 1).toNat = k by omega, List.getD_eq_getElem _ _ h1]

/-! ### the longest elements -/

/-- Reverses `1, ..., n`. -/
def revFun (n : Nat) (a : Int) : Int :=
  if 0 < a ∧ a ≤ n then n + 1 - a else if a < 0 ∧ -a ≤ n then -(n + 1 + a) else a

theorem revFun_odd (n : Nat) : Odd (revFun n) n := by
  refine ⟨fun a => ?_, fun a b => ?_, fun a => ?_, fun a => ?_⟩ <;> unfold revFun <;> (repeat' split) <;> omega

/-- Negates `1, ..., n`. -/
def negFun (n : Nat) (a : Int) : Int := if a.natAbs ≤ n then -a else a

theorem negFun_odd (n : Nat) : Odd (negFun n) n := by
  refine ⟨fun a => ?_, fun a b => ?_, fun a => ?_, fun a => ?_⟩ <;> unfold negFun <;> (repeat' split) <;> omega

theorem longestUnsigned?_spec (n : Nat) : ∃ w, longestUnsigned? n = some w ∧ ∀ a, w.call a = revFun n a := by
  have : (caller n).reverse = line (revFun n) n := by
    refine List.ext_getElem (by simp [caller]) (fun k h1 h2 => ?_)
    rw [length_line] at h2
    rw [getElem_line, List.getElem_reverse]
    unfold caller revFun
    rw [List.getElem_map, List.getElem_range, if_pos (by omega)]
    simp
    omega
  rw [longestUnsigned?, this]
  exact construct_line (revFun_odd n)

theorem longestSigned?_spec (n : Nat) : ∃ w, longestElement? n true = some w ∧ ∀ a, w.call a = negFun n a := by
  have : (caller n).map (fun i => -i) = line (negFun n) n := by
    refine List.ext_getElem (by simp [caller]) (fun k h1 h2 => ?_)
    rw [length_line] at h2
    rw [getElem_line, List.getElem_map]
    unfold caller negFun
    rw [List.getElem_map, List.getElem_range, if_pos (by omega)]
  rw [longestElement?, if_pos rfl, this]
  exact construct_line (negFun_odd n)

/-! ### star -/

theorem star?_spec {w : SPerm} (h : isUnsigned w = true) :
    ∃ v, star? w = some v ∧ ∀ a, v.call a = revFun w.rank (w.call (revFun w.rank a)) := by
  have ho : Odd (fun a => revFun w.rank (w.call (revFun w.rank a))) w.rank := by
    have h1 := revFun_odd w.rank
    have h2 := call_odd w
    exact ⟨fun a => by rw [h1.neg, h2.neg, h1.neg], fun a b hab => h1.inj _ _ (h2.inj _ _ (h1.inj _ _ hab)),
      fun a ha => h1.bound _ (h2.bound _ (h1.bound _ ha)), fun a ha => by
        show revFun w.rank (w.call (revFun w.rank a)) = a
        rw [h1.out a ha, h2.out a ha, h1.out a ha]⟩
  have : w.oneline.reverse.map (fun i => (w.rank : Int) + 1 - i) = line (fun a => revFun w.rank (w.call (revFun w.rank a))) w.rank := by
    refine List.ext_getElem (by simp; rfl) (fun k h1 h2 => ?_)
    rw [length_line] at h2
    have hr : w.rank = w.oneline.length := rfl
    rw [getElem_line, List.getElem_map, List.getElem_reverse]
    have h3 : revFun w.rank ((k : Int) + 1) = (w.rank : Int) - k := by unfold revFun; rw [if_pos (by omega)]; omega
    simp only [h3]
    have h4 := isUnsigned_iff.1 h ((w.rank : Int) - k) (by omega)
    have h5 := (call_odd w).bound ((w.rank : Int) - k) (by omega)
    rw [revFun, if_pos (by omega)]
    congr 1
    rw [SPerm.call, if_pos (by omega), List.getD_eq_getElem _ _ (by omega)]
    congr 1
    omega
  rw [star?, this]
  exact construct_line ho

theorem star?_none {w : SPerm} (h : isUnsigned w = false) : star? w = none := by
  refine construct_eq_none ?_
  rw [← Bool.not_eq_true, isOneline_iff]
  rintro ⟨-, h2⟩
  rw [← Bool.not_eq_true, isUnsigned, List.all_eq_true] at h
  push Not at h
  obtain ⟨a, ha, ha'⟩ := h
  rw [ne_eq, decide_eq_true_eq] at ha'
  have := h2 ((w.rank : Int) + 1 - a) (List.mem_map.2 ⟨a, by simpa using ha, rfl⟩)
  have hr : w.rank = w.oneline.length := rfl
  simp only [List.length_map, List.length_reverse] at this
  have h0 := ((isOneline_iff _).1 w.ok).2 a ha
  omega

/-! ### powers -/

theorem powNat_spec (w : SPerm) (n : Nat) (hn : 1 ≤ n) : ∃ v, powNat w n = .ok v ∧ ∀ a, v.call a = (w.call)^[n] a := by
  induction n using Nat.strong_induction_on with
  | _ n ih =>
    rw [powNat, if_neg (by omega)]
    by_cases h1 : n = 1
    · rw [if_pos h1]
      subst h1
      exact ⟨w, rfl, fun a => rfl⟩
    · rw [if_neg h1]
      obtain ⟨u, hu, hu'⟩ := ih (n / 2) (by omega) (by omega)
      obtain ⟨v, hv, hv'⟩ := ih (n - n / 2) (by omega) (by omega)
      refine ⟨mul u v, by rw [hu, hv]; rfl, fun a => ?_⟩
      rw [call_mul, hv', hu', ← Function.iterate_add_apply]
      congr 1
      omega

/-! ### cycles -/

theorem foldl_mul {α : Type} (g : α → SPerm) (l : List α) (u : SPerm) :
    l.foldl (fun ans p => mul ans (g p)) u = mul u (l.foldl (fun ans p => mul ans (g p)) identity) := by
  induction l generalizing u with
  | nil => rw [List.foldl_nil, List.foldl_nil, mul_one']
  | cons a l ih => rw [List.foldl_cons, List.foldl_cons, ih, ih (mul identity (g a)), one_mul', mul_assoc']

theorem cycle_cons (a b : Nat) (r : List Nat) : cycle (a :: b :: r) = mul (reflectionT a b) (cycle (b :: r)) := by
  rw [cycle, List.tail_cons, List.zip_cons_cons, List.foldl_cons, foldl_mul, one_mul']
  rfl

theorem cycle_spec {args : List Nat} (hpos : ∀ a ∈ args, 1 ≤ a) (hnd : args.Nodup) :
    args.map (fun x : Nat => (cycle args).call x) = (args.rotate 1).map (fun x : Nat => (x : Int)) ∧
      ∀ x : Int, x.natAbs ∉ args → (cycle args).call x = x := by
  induction args with
  | nil => exact ⟨rfl, fun x _ => call_identity x⟩
  | cons a args ih =>
    cases args with
    | nil =>
      have : cycle [a] = identity := rfl
      rw [this]
      exact ⟨by simp [call_identity], fun x _ => call_identity x⟩
    | cons b r =>
      rw [List.nodup_cons] at hnd
      obtain ⟨h1, h2⟩ := ih (fun x hx => hpos x (by simp [hx])) hnd.2
      rw [List.rotate_cons_succ, List.rotate_zero, List.map_append] at h1
      have hnd' := List.nodup_cons.1 hnd.2
      have ha := hpos a (by simp)
      have hb := hpos b (by simp)
      rw [cycle_cons]
      constructor
      · rw [List.rotate_cons_succ, List.rotate_zero, List.map_append, List.map_cons]
        have h3 : (b :: r).map (fun x : Nat => (mul (reflectionT a b) (cycle (b :: r))).call x) =
            ((b :: r).map (fun x : Nat => (cycle (b :: r)).call x)).map (reflectionT a b).call := by
          rw [List.map_map]; exact List.map_congr_left (fun x _ => by simp)
        rw [h3, h1, List.map_append]
        have h4 : (cycle (b :: r)).call a = a := h2 a (by simpa using hnd.1)
        rw [call_mul, h4, call_reflectionT ha hb, List.map_cons (l := r), List.cons_append]
        congr 1
        · unfold tFun; rw [if_pos rfl]
        · congr 1
          · rw [List.map_map]
            refine List.map_congr_left (fun x hx => ?_)
            simp only [Function.comp_apply]
            rw [call_reflectionT ha hb]
            have hxb : x ≠ b := fun h => hnd'.1 (h ▸ hx)
            have hxa : x ≠ a := fun h => hnd.1 (by rw [← h]; simp [hx])
            unfold tFun
            rw [if_neg (by omega), if_neg (by omega), if_neg (by omega), if_neg (by omega)]
          · simp only [List.map_cons, List.map_nil]
            rw [call_reflectionT ha hb]
            unfold tFun
            by_cases hab : (b : Int) = a
            · rw [if_pos hab, hab]
            · rw [if_neg hab, if_pos rfl]
      · intro x hx
        simp only [List.mem_cons, not_or] at hx
        rw [call_mul, h2 x (by simp [hx.2.1, hx.2.2]), call_reflectionT ha hb]
        unfold tFun
        rw [if_neg (by omega), if_neg (by omega), if_neg (by omega), if_neg (by omega)]

theorem oneline_getD {w : SPerm} {a : Int} (h1 : 0 < a) (h2 : a ≤ w.rank) : w.oneline.getD (a - 1).toNat 0 = w.call a := by
  rw [SPerm.call, if_pos ⟨h1, h2⟩]

/-- A set of numbers closed under the permutation, up to sign. -/
def Stable (w : SPerm) (S : List Int) : Prop := S.Nodup ∧ (∀ x ∈ S, 0 < x ∧ x ≤ w.rank) ∧ ∀ x ∈ S, |w.call x| ∈ S

theorem cycleLoop_spec {w : SPerm} {S : List Int} (hS : Stable w S) (fuel : Nat) : ∀ (a : Int) (c : List Int) (nxt : Int)
    (numbers : List Int), numbers.length < fuel → ((a :: c) ++ numbers).Perm S → (a :: c).map w.call = c ++ [nxt] →
    (∃ c' numbers', cycleLoop w.oneline fuel (a :: c) nxt numbers = .ok (a :: c', numbers') ∧
      (a :: c').map w.call = c' ++ [a] ∧ numbers'.Sublist numbers ∧ ((a :: c') ++ numbers').Perm S) ∨
    (cycleLoop w.oneline fuel (a :: c) nxt numbers = .error .value ∧ ∃ x ∈ S, w.call x < 0) := by
  induction fuel with
  | zero => intro a c nxt numbers h; omega
  | succ fuel ih =>
    intro a c nxt numbers hlen hp hm
    rw [cycleLoop]
    by_cases h1 : nxt = a
    · rw [if_pos (by simpa using h1)]
      subst h1
      exact Or.inl ⟨c, numbers, rfl, hm, List.Sublist.refl _, hp⟩
    · rw [if_neg (by simpa using h1)]
      have hsub : ∀ x ∈ a :: c, x ∈ S := fun x hx => hp.subset (List.mem_append_left _ hx)
      obtain ⟨z, hz, hz'⟩ : ∃ z ∈ a :: c, w.call z = nxt := by
        have : nxt ∈ (a :: c).map w.call := by rw [hm]; simp
        exact List.mem_map.1 this
      have hzS := hsub z hz
      by_cases h2 : nxt ∈ numbers
      · rw [if_pos h2]
        have hnS : nxt ∈ S := hp.subset (List.mem_append_right _ h2)
        have hb := hS.2.1 nxt hnS
        rw [oneline_getD hb.1 hb.2]
        have hp' : ((a :: (c ++ [nxt])) ++ numbers.erase nxt).Perm S := by
          refine List.Perm.trans ?_ hp
          rw [show (a :: (c ++ [nxt])) ++ numbers.erase nxt = (a :: c) ++ (nxt :: numbers.erase nxt) by simp]
          exact List.Perm.append_left _ (List.perm_cons_erase h2).symm
        have hm' : (a :: (c ++ [nxt])).map w.call = (c ++ [nxt]) ++ [w.call nxt] := by
          rw [show a :: (c ++ [nxt]) = (a :: c) ++ [nxt] by simp, List.map_append, hm]
          simp
        have hl : (numbers.erase nxt).length < fuel := by
          rw [List.length_erase_of_mem h2]
          have := List.length_pos_of_mem h2
          omega
        rcases ih a (c ++ [nxt]) (w.call nxt) (numbers.erase nxt) hl hp' hm' with ⟨c', n', e1, e2, e3, e4⟩ | ⟨e1, e2⟩
        · exact Or.inl ⟨c', n', by simpa using e1, e2, e3.trans List.erase_sublist, e4⟩
        · exact Or.inr ⟨by simpa using e1, e2⟩
      · rw [if_neg h2]
        refine Or.inr ⟨rfl, z, hzS, ?_⟩
        by_contra hc
        have hSz := hS.2.2 z hzS
        rw [abs_of_nonneg (by omega), hz'] at hSz
        have hmem := hp.symm.subset hSz
        rcases List.mem_append.1 hmem with h3 | h3
        · rcases List.mem_cons.1 h3 with h4 | h4
          · exact h1 h4
          · have hnd : ((a :: c).map w.call).Nodup := by
              refine List.Nodup.map (fun x y h => (call_odd w).inj _ _ h) ?_
              exact ((hp.nodup_iff.2 hS.1).sublist (List.sublist_append_left _ _))
            rw [hm, List.nodup_append] at hnd
            exact hnd.2.2 _ h4 _ (by simp) rfl
        · exact h2 h3

theorem cyclesLoop_spec {w : SPerm} {fuel : Nat} (k : Nat) : ∀ (cs : List (List Int)) (S : List Int), S.length < fuel → S.length < k →
    Stable w S → S.Pairwise (· < ·) →
    (∃ cs', cyclesLoop w.oneline fuel k cs S = .ok (cs ++ cs') ∧ cs'.flatten.Perm S ∧
      (∀ c ∈ cs', c ≠ [] ∧ c.map w.call = c.rotate 1 ∧ ∀ x ∈ c, c.headD 0 ≤ x) ∧ (cs'.map (fun c => c.headD 0)).Pairwise (· < ·) ∧
      (cs'.map (fun c => c.headD 0)).Sublist S) ∨
    (cyclesLoop w.oneline fuel k cs S = .error .value ∧ ∃ x ∈ S, w.call x < 0) := by
  induction k with
  | zero => intro cs S h1 h2; omega
  | succ k ih =>
    intro cs S h1 h2 hS hsort
    cases S with
    | nil => exact Or.inl ⟨[], by rw [cyclesLoop, List.append_nil], by simp, by simp, by simp, by simp⟩
    | cons a S =>
      rw [cyclesLoop]
      have ha := hS.2.1 a (by simp)
      rw [oneline_getD ha.1 ha.2]
      simp only [List.length_cons] at h1 h2
      rcases cycleLoop_spec hS fuel a [] (w.call a) S (by omega) (by simp) (by simp) with ⟨c, n', e1, e2, e3, e4⟩ | ⟨e1, e2⟩
      · rw [e1]
        have hsub : ∀ x ∈ n', x ∈ a :: S := fun x hx => List.mem_cons_of_mem _ (e3.subset hx)
        have hnd := e4.nodup_iff.2 hS.1
        have hst : Stable w n' := by
          refine ⟨(List.nodup_append.1 hnd).2.1, fun x hx => hS.2.1 x (hsub x hx), fun x hx => ?_⟩
          have h3 := hS.2.2 x (hsub x hx)
          rcases List.mem_append.1 (e4.symm.subset h3) with h4 | h4
          · exfalso
            have h5 : |w.call x| ∈ (a :: c).map w.call := by
              rw [e2]
              rcases List.mem_cons.1 h4 with h | h
              · rw [h]; simp
              · simp [h]
            obtain ⟨y, hy, hy'⟩ := List.mem_map.1 h5
            have hpos := hS.2.1 y (e4.subset (List.mem_append_left _ hy))
            have hposx := hS.2.1 x (hsub x hx)
            have hyx : y = x := by
              rcases abs_choice (w.call x) with h | h
              · exact (call_odd w).inj _ _ (hy'.trans h)
              · rw [h, ← (call_odd w).neg] at hy'
                have := (call_odd w).inj _ _ hy'
                omega
            subst hyx
            exact (List.nodup_append.1 hnd).2.2 _ hy _ hx rfl
          · exact h4
        have hlen := e3.length_le
        have hsort' := (List.pairwise_cons.1 hsort)
        rcases ih (cs ++ [a :: c]) n' (by omega) (by omega) hst (hsort'.2.sublist e3) with ⟨cs', f1, f2, f3, f4, f5⟩ | ⟨f1, x, f2, f3⟩
        · refine Or.inl ⟨(a :: c) :: cs', by rw [show cs ++ (a :: c) :: cs' = cs ++ [a :: c] ++ cs' by simp]; exact f1, ?_, ?_, ?_, ?_⟩
          · rw [List.flatten_cons]
            exact (List.Perm.append_left _ f2).trans e4
          · intro d hd
            rcases List.mem_cons.1 hd with rfl | hd
            · refine ⟨by simp, by rw [e2, List.rotate_cons_succ, List.rotate_zero], fun x hx => ?_⟩
              have := e4.subset (List.mem_append_left _ hx)
              rcases List.mem_cons.1 this with h | h
              · rw [h]; simp
              · exact le_of_lt (by simpa using hsort'.1 x h)
            · exact f3 d hd
          · rw [List.map_cons, List.pairwise_cons]
            refine ⟨fun x hx => ?_, f4⟩
            simpa using hsort'.1 x (e3.subset (f5.subset hx))
          · rw [List.map_cons]
            exact List.Sublist.cons_cons _ (f5.trans e3)
        · exact Or.inr ⟨f1, x, hsub x f2, f3⟩
      · rw [e1]
        exact Or.inr ⟨rfl, e2⟩

theorem mem_caller {n : Nat} {x : Int} : x ∈ caller n ↔ 0 < x ∧ x ≤ n := by
  unfold caller
  rw [List.mem_map]
  constructor
  · rintro ⟨k, hk, rfl⟩; rw [List.mem_range] at hk; omega
  · rintro ⟨h1, h2⟩; exact ⟨(x - 1).toNat, List.mem_range.2 (by omega), by omega⟩

theorem caller_sorted (n : Nat) : (caller n).Pairwise (· < ·) := by
  unfold caller
  rw [List.pairwise_map]
  exact List.pairwise_lt_range.imp (fun h => by omega)

theorem stable_caller (w : SPerm) : Stable w (caller w.rank) := by
  refine ⟨(caller_sorted _).imp (fun h => ne_of_lt h), fun x hx => mem_caller.1 hx, fun x hx => ?_⟩
  have hx := mem_caller.1 hx
  have := (call_odd w).bound x (by omega)
  have := (call_odd w).ne_zero (i := x) (by omega)
  rw [mem_caller]
  rcases abs_choice (w.call x) with h | h <;> rw [h] <;> constructor <;> (have := abs_nonneg (w.call x); omega)

/-- A product of disjoint cycles agrees with each of them on its own entries. -/
theorem prod_cycles {w : SPerm} : ∀ {cs : List (List Nat)}, cs.flatten.Nodup → (∀ c ∈ cs, ∀ x ∈ c, 1 ≤ x) →
    (∀ c ∈ cs, c.map (fun x : Nat => w.call x) = (c.rotate 1).map (fun x : Nat => (x : Int))) →
    (∀ x ∈ cs.flatten, (cs.foldl (fun ans c => mul ans (cycle c)) identity).call (x : Nat) = w.call x) ∧
      ∀ x : Int, x.natAbs ∉ cs.flatten → (cs.foldl (fun ans c => mul ans (cycle c)) identity).call x = x := by
  intro cs
  induction cs with
  | nil => intro _ _ _; exact ⟨by simp, fun x _ => call_identity x⟩
  | cons c cs ih =>
    intro h1 h2 h3
    rw [List.flatten_cons, List.nodup_append] at h1
    obtain ⟨i1, i2⟩ := ih h1.2.1 (fun d hd => h2 d (by simp [hd])) (fun d hd => h3 d (by simp [hd]))
    obtain ⟨c1, c2⟩ := cycle_spec (h2 c (by simp)) h1.1
    have hw := h3 c (by simp)
    rw [List.foldl_cons, foldl_mul, one_mul']
    have hc : ∀ x ∈ c, (cycle c).call (x : Nat) = w.call x := by
      have := c1.trans hw.symm
      exact fun x hx => List.map_inj_left.1 this x hx
    constructor
    · intro x hx
      rw [call_mul]
      rw [List.flatten_cons] at hx
      rcases List.mem_append.1 hx with hx | hx
      · rw [i2 (x : Int) (fun hc => h1.2.2 x hx x (by simpa using hc) rfl), hc x hx]
      · rw [i1 x hx]
        have hwx : w.call x ∈ (cs.flatten).map (fun x : Nat => (x : Int)) := by
          obtain ⟨d, hd, hxd⟩ := List.mem_flatten.1 hx
          have : w.call x ∈ d.map (fun x : Nat => w.call x) := List.mem_map.2 ⟨x, hxd, rfl⟩
          rw [h3 d (by simp [hd])] at this
          obtain ⟨y, hy, hy'⟩ := List.mem_map.1 this
          rw [List.mem_rotate] at hy
          exact List.mem_map.2 ⟨y, List.mem_flatten.2 ⟨d, hd, hy⟩, hy'⟩
        obtain ⟨y, hy, hy'⟩ := List.mem_map.1 hwx
        rw [← hy']
        exact c2 _ (fun hc => h1.2.2 y (by simpa using hc) y hy rfl)
    · intro x hx
      rw [List.flatten_cons, List.mem_append, not_or] at hx
      rw [call_mul, i2 x hx.2, c2 x hx.1]

end Verif.Perm
