import Verif.Lemmas.PermMore
import Verif.Lemmas.FpfWords

/-! # C61: cycles, powers, the star operation and the longest elements -/

namespace Verif.Perm

/-- C61 (cycle): `cycle(*args)` sends every argument to the next one, the last one to the first one, and fixes the rest. -/
theorem C61_cycle {args : List Nat} (hpos : ∀ a ∈ args, 1 ≤ a) (hnd : args.Nodup) :
    args.map (fun x : Nat => (cycle args).call x) = (args.rotate 1).map (fun x : Nat => (x : Int)) ∧
      ∀ x : Int, x.natAbs ∉ args → (cycle args).call x = x :=
  cycle_spec hpos hnd

example : (cycle [2, 5, 3]).oneline = [1, 5, 2, 4, 3] := by decide +kernel

/-- C61 (cycles): for a permutation without signs `cycles` is the decomposition into cycles.  Every number from 1 to the rank
occurs once; each cycle starts with its smallest entry, and is permuted cyclically by `w`; the cycles are sorted; and `w` is the
product of the permutations `cycle(*c)`. -/
theorem C61_cycles {w : SPerm} (h : isUnsigned w = true) {fuel : Nat} (hf : w.rank < fuel) :
    ∃ cs, cycles fuel w = .ok cs ∧ cs.flatten.Perm ((List.range w.rank).map (fun k : Nat => (k : Int) + 1)) ∧
      (∀ c ∈ cs, c ≠ [] ∧ c.map w.call = c.rotate 1 ∧ ∀ x ∈ c, c.headD 0 ≤ x) ∧ (cs.map (fun c => c.headD 0)).Pairwise (· < ·) ∧
      w = cs.foldl (fun ans c => mul ans (cycle (c.map Int.toNat))) identity := by
  have hlen : (caller w.rank).length = w.rank := by simp [caller]
  rcases cyclesLoop_spec (w := w) (fuel := fuel) fuel [] (caller w.rank) (by omega) (by omega) (stable_caller w) (caller_sorted _) with
    ⟨cs, h1, h2, h3, h4, -⟩ | ⟨-, x, h2, h3⟩
  · refine ⟨cs, h1, h2, h3, h4, ?_⟩
    have hpos : ∀ c ∈ cs, ∀ x ∈ c, 0 < x ∧ x ≤ w.rank := fun c hc x hx => mem_caller.1 (h2.subset (List.mem_flatten.2 ⟨c, hc, hx⟩))
    have hcast : ∀ c ∈ cs, (c.map Int.toNat).map (fun x : Nat => (x : Int)) = c := by
      intro c hc
      rw [List.map_map]
      conv => rhs; rw [← List.map_id c]
      refine List.map_congr_left (fun x hx => ?_)
      have := hpos c hc x hx
      simp only [Function.comp_apply, id]
      omega
    have hnd : cs.flatten.Nodup := h2.nodup_iff.2 (stable_caller w).1
    have hflat : (cs.map (fun c => c.map Int.toNat)).flatten = cs.flatten.map Int.toNat := by
      rw [List.map_flatten]
    have key := prod_cycles (w := w) (cs := cs.map (fun c => c.map Int.toNat)) (by
        rw [hflat]
        refine List.Nodup.map_on (fun x hx y hy he => ?_) hnd
        have a := mem_caller.1 (h2.subset hx)
        have b := mem_caller.1 (h2.subset hy)
        omega) (by
        intro c hc x hx
        obtain ⟨d, hd, rfl⟩ := List.mem_map.1 hc
        obtain ⟨y, hy, rfl⟩ := List.mem_map.1 hx
        have := hpos d hd y hy
        omega) (by
        intro c hc
        obtain ⟨d, hd, rfl⟩ := List.mem_map.1 hc
        have e1 : (d.map Int.toNat).map (fun x : Nat => w.call x) = d.map w.call := by
          conv => rhs; rw [← hcast d hd]
          rw [List.map_map, List.map_map, List.map_map]
          refine List.map_congr_left (fun x hx => ?_)
          rfl
        rw [e1, List.map_rotate, hcast d hd, (h3 d hd).2.1])
    rw [List.foldl_map] at key
    refine ext_pos (fun x hx => ?_)
    by_cases hr : x ≤ w.rank
    · have hm : x.toNat ∈ (cs.map (fun c => c.map Int.toNat)).flatten := by
        rw [hflat]
        exact List.mem_map.2 ⟨x, h2.symm.subset (mem_caller.2 ⟨hx, hr⟩), rfl⟩
      have := key.1 _ hm
      rw [show ((x.toNat : Nat) : Int) = x by omega] at this
      exact this.symm
    · rw [(call_odd w).out x (by omega)]
      refine (key.2 x (fun hc => ?_)).symm
      rw [hflat] at hc
      obtain ⟨y, hy, hy'⟩ := List.mem_map.1 hc
      have := mem_caller.1 (h2.subset hy)
      omega
  · have hx := mem_caller.1 h2
    have := isUnsigned_iff.1 h x hx.1
    omega

example : (construct [3, 4, 1, 2, 7, 6, 5]).map (cycles 8) = some (.ok [[1, 3], [2, 4], [5, 7], [6]]) := by decide +kernel

/-- C61 (cycles): if there are signs, `cycles` fails with a `ValueError`. -/
theorem C61_cycles_signed {w : SPerm} (h : isUnsigned w = false) {fuel : Nat} (hf : w.rank < fuel) : cycles fuel w = .error .value := by
  have hlen : (caller w.rank).length = w.rank := by simp [caller]
  rcases cyclesLoop_spec (w := w) (fuel := fuel) fuel [] (caller w.rank) (by omega) (by omega) (stable_caller w) (caller_sorted _) with
    ⟨cs, h1, h2, h3, -⟩ | ⟨h1, -⟩
  · exfalso
    rw [← Bool.not_eq_true, isUnsigned_iff] at h
    push Not at h
    obtain ⟨a, ha, ha'⟩ := h
    have hr : a ≤ w.rank := by
      by_contra hc
      rw [(call_odd w).out a (by omega)] at ha'
      omega
    obtain ⟨c, hc, hac⟩ := List.mem_flatten.1 (h2.symm.subset (mem_caller.2 ⟨ha, hr⟩))
    have h4 : w.call a ∈ c.map w.call := List.mem_map.2 ⟨a, hac, rfl⟩
    rw [(h3 c hc).2.1, List.mem_rotate] at h4
    have := mem_caller.1 (h2.subset (List.mem_flatten.2 ⟨c, hc, h4⟩))
    omega
  · exact h1

example : (construct [3, -2, 1]).map (cycles 8) = some (.error .value) := by decide +kernel

/-- C61 (powers): for `n ≥ 1` the power is the `n`-fold iterate, for `n ≤ -1` the iterate of the inverse; and `w ** 0` fails with
a `TypeError`, because `identity` does not take an argument. -/
theorem C61_pow (w : SPerm) : (∀ n : Nat, 1 ≤ n → ∃ v, pow w n = .ok v ∧ ∀ a, v.call a = (w.call)^[n] a) ∧
    (∀ n : Nat, 1 ≤ n → ∃ v, pow w (-(n : Int)) = .ok v ∧ ∀ a, (w.call)^[n] (v.call a) = a) ∧ pow w 0 = .error .type := by
  refine ⟨fun n hn => ?_, fun n hn => ?_, ?_⟩
  · rw [pow, if_neg (by omega)]
    exact powNat_spec w n hn
  · rw [pow, if_pos (by omega), show (-(-(n : Int))).toNat = n by omega]
    obtain ⟨v, h1, h2⟩ := powNat_spec (inverse w) n hn
    refine ⟨v, h1, fun a => ?_⟩
    rw [h2]
    exact Function.LeftInverse.iterate (f := (inverse w).call) (g := w.call) (fun x => by simp) n a
  · rw [pow, if_neg (by omega), powNat, if_pos (by decide)]

example : (construct [2, 3, -1]).bind (fun w => (pow w 4).toOption.map SPerm.oneline) = some [-2, -3, 1] := by
  decide +kernel

/-- C61 (star): for a permutation without signs, of rank `n`, `star` sends `a` to `n + 1 - w(n + 1 - a)`.  Applied twice it gives
back `w` exactly if `w(1) ≠ 1` or `w` is the identity, since otherwise the rank drops.  If there are signs, the assertion in the
constructor fails. -/
theorem C61_star (w : SPerm) : (isUnsigned w = true → ∃ v, star? w = some v ∧ isUnsigned v = true ∧
      (∀ a : Int, 1 ≤ a → a ≤ w.rank → v.call a = w.rank + 1 - w.call (w.rank + 1 - a)) ∧ (∀ a : Int, w.rank < a → v.call a = a) ∧
      (star? v = some w ↔ w.call 1 ≠ 1 ∨ w = identity)) ∧
    (isUnsigned w = false → star? w = none) := by
  refine ⟨fun h => ?_, star?_none⟩
  obtain ⟨v, h1, h2⟩ := star?_spec h
  have hu : isUnsigned v = true := by
    rw [isUnsigned_iff]
    intro a ha
    rw [h2]
    have h3 : 0 < revFun w.rank a := by unfold revFun; (repeat' split) <;> omega
    have h4 := isUnsigned_iff.1 h _ h3
    obtain ⟨b, hb⟩ : ∃ b, w.call (revFun w.rank a) = b := ⟨_, rfl⟩
    rw [hb] at h4 ⊢
    unfold revFun; (repeat' split) <;> omega
  have ho : Odd v.call w.rank := by
    refine ⟨(call_odd v).neg, (call_odd v).inj, fun a ha => ?_, fun a ha => ?_⟩
    · rw [h2]; exact (revFun_odd _).bound _ ((call_odd w).bound _ ((revFun_odd _).bound _ ha))
    · rw [h2, (revFun_odd _).out a ha, (call_odd w).out a ha, (revFun_odd _).out a ha]
  have hval : ∀ a : Int, 1 ≤ a → a ≤ w.rank → v.call a = w.rank + 1 - w.call (w.rank + 1 - a) := by
    intro a h3 h4
    have h5 : revFun w.rank a = w.rank + 1 - a := by unfold revFun; rw [if_pos (by omega)]
    have h6 := isUnsigned_iff.1 h (w.rank + 1 - a) (by omega)
    have h7 := (call_odd w).bound (w.rank + 1 - a) (by omega)
    rw [h2, h5, revFun, if_pos (by omega)]
  have hout : ∀ a : Int, w.rank < a → v.call a = a := fun a ha => ho.out a (by omega)
  refine ⟨v, h1, hu, hval, hout, ?_⟩
  have hvr : v.rank ≤ w.rank := rank_le_of_odd ho
  obtain ⟨u, hu1, hu2⟩ := star?_spec hu
  have huo : Odd u.call v.rank := by
    refine ⟨(call_odd u).neg, (call_odd u).inj, fun a ha => ?_, fun a ha => ?_⟩
    · rw [hu2]; exact (revFun_odd _).bound _ ((call_odd v).bound _ ((revFun_odd _).bound _ ha))
    · rw [hu2, (revFun_odd _).out a ha, (call_odd v).out a ha, (revFun_odd _).out a ha]
  have hur := rank_le_of_odd huo
  rw [hu1, Option.some.injEq]
  by_cases hid : w = identity
  · simp only [hid, or_true, iff_true]
    have hr : v.rank = 0 := by
      have : w.rank = 0 := by rw [hid]; rfl
      omega
    refine ext_call (fun a => ?_)
    rw [call_identity]
    by_cases ha : a = 0
    · rw [ha, (call_odd u).zero]
    · exact huo.out a (by omega)
  · have hw0 : w.rank ≠ 0 := fun hc => hid (ext_call (fun a => by
      rw [call_identity]
      by_cases ha : a = 0
      · rw [ha, (call_odd w).zero]
      · exact (call_odd w).out a (by omega)))
    simp only [hid, or_false]
    constructor
    · intro he h11
      have h8 := hval w.rank (by omega) le_rfl
      rw [show (w.rank : Int) + 1 - w.rank = 1 by omega, h11] at h8
      have h9 : v.rank < w.rank := by
        by_contra hc
        have hvw : v.rank = w.rank := by omega
        rw [← hvw] at h8
        have h10 : v.call v.rank = v.rank := by omega
        rw [SPerm.call, if_pos (by omega)] at h10
        apply v.trimmed
        have hr : v.rank = v.oneline.length := rfl
        rw [List.getLast?_eq_getElem?, List.getElem?_eq_getElem (by omega)]
        rw [List.getD_eq_getElem _ _ (by omega)] at h10
        congr 1
        simp only [show ((v.rank : Int) - 1).toNat = v.oneline.length - 1 by omega] at h10
        exact h10
      rw [he] at hur
      omega
    · intro h11
      have hvw : v.rank = w.rank := by
        by_contra hc
        have h8 := hval w.rank (by omega) le_rfl
        rw [(call_odd v).out _ (by omega), show (w.rank : Int) + 1 - w.rank = 1 by omega] at h8
        exact h11 (by omega)
      refine ext_call (fun a => ?_)
      rw [hu2, hvw, h2]
      have hrr : ∀ x, revFun w.rank (revFun w.rank x) = x := by
        intro x; unfold revFun; (repeat' split) <;> omega
      rw [hrr, hrr]

example : ((construct [3, 1, 2, 4]).bind star?).map SPerm.oneline = some [2, 3, 1] ∧
    ((construct [1, 3, 2]).bind star?).map SPerm.oneline = some [2, 1] ∧ (construct [1, -2]).bind star? = none := by decide +kernel

/-- C61 (longest elements): `longest_element(n)` reverses `1, ..., n` and `longest_element(n, signed=True)` negates them. -/
theorem C61_longest (n : Nat) : (∃ w, longestElement? n false = some w ∧ (∀ a : Int, 1 ≤ a → a ≤ n → w.call a = n + 1 - a) ∧
      ∀ a : Int, (n : Int) < a → w.call a = a) ∧
    (∃ w, longestElement? n true = some w ∧ (∀ a : Int, 1 ≤ a → a ≤ n → w.call a = -a) ∧ ∀ a : Int, (n : Int) < a → w.call a = a) := by
  constructor
  · obtain ⟨w, h1, h2⟩ := longestUnsigned?_spec n
    refine ⟨w, by rw [longestElement?]; exact h1, fun a h3 h4 => ?_, fun a h3 => ?_⟩
    · rw [h2, revFun, if_pos (by omega)]
    · rw [h2, revFun, if_neg (by omega), if_neg (by omega)]
  · obtain ⟨w, h1, h2⟩ := longestSigned?_spec n
    refine ⟨w, h1, fun a h3 h4 => ?_, fun a h3 => ?_⟩
    · rw [h2, negFun, if_pos (by omega)]
    · rw [h2, negFun, if_neg (by omega)]

example : ((longestElement? 4 false).map SPerm.oneline, (longestElement? 3 true).map SPerm.oneline) =
    (some [4, 3, 2, 1], some [-1, -2, -3]) := by decide +kernel

end Verif.Perm
