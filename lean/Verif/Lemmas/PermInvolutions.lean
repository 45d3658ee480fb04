import Verif.Lemmas.PermAll
import Verif.Lemmas.Reflections
import Verif.Lemmas.PartitionsCorner
import Mathlib.Data.List.Sections

/-! # The generator of involutions -/

attribute [-simp] List.getD_eq_getElem?_getD

namespace Verif.Perm

open Verif.Partition

/-! ### the queue of delta vectors -/

/-- The vectors between `(1, 1, ..., 1)` and `top`. -/
def Below (top delta : List Nat) : Prop := List.Forall₂ (fun d t => 1 ≤ d ∧ d ≤ t) delta top

theorem newDeltas_nil : newDeltas [] = [] := rfl

theorem newDeltas_cons (d : Nat) (ds : List Nat) : newDeltas (d :: ds) =
    (if d > 1 then [(d - 1) :: ds] else []) ++ (newDeltas ds).map (fun c => d :: c) := by
  rw [newDeltas, List.length_cons, List.range_succ_eq_map, List.filterMap_cons, List.filterMap_map, newDeltas, List.map_filterMap]
  have h : (fun i => if (d :: ds).getD i 0 > 1 then
      some ((d :: ds).take i ++ [(d :: ds).getD i 0 - 1] ++ (d :: ds).drop (i + 1)) else none) ∘ Nat.succ =
      fun x => Option.map (fun c => d :: c) (if ds.getD x 0 > 1 then
        some (ds.take x ++ [ds.getD x 0 - 1] ++ ds.drop (x + 1)) else none) := by
    funext x
    simp only [Function.comp, Nat.succ_eq_add_one, List.getD_cons_succ, List.take_succ_cons, List.drop_succ_cons]
    split <;> rfl
  rw [h]
  rw [List.getD_cons_zero]
  by_cases hd : d > 1 <;> simp [hd]

theorem newDeltas_below {top : List Nat} : ∀ {delta c : List Nat}, Below top delta → c ∈ newDeltas delta →
    Below top c ∧ c.sum + 1 = delta.sum := by
  induction top with
  | nil =>
    intro delta c h hc
    cases h
    rw [newDeltas_nil] at hc
    simp at hc
  | cons t top ih =>
    intro delta c h hc
    cases h with
    | @cons d _ ds _ h1 h2 =>
      rw [newDeltas_cons, List.mem_append, List.mem_map] at hc
      rcases hc with hc | ⟨c', hc', rfl⟩
      · split at hc
        · rw [List.mem_singleton] at hc
          subst hc
          exact ⟨.cons (by omega) h2, by simp only [List.sum_cons]; omega⟩
        · simp at hc
      · obtain ⟨g1, g2⟩ := ih h2 hc'
        exact ⟨.cons h1 g1, by simp only [List.sum_cons]; omega⟩

theorem exists_parent {top : List Nat} : ∀ {delta : List Nat}, Below top delta → delta ≠ top →
    ∃ p, Below top p ∧ delta ∈ newDeltas p := by
  induction top with
  | nil => intro delta h hne; cases h; exact absurd rfl hne
  | cons t top ih =>
    intro delta h hne
    cases h with
    | @cons d _ ds _ h1 h2 =>
      by_cases hd : d < t
      · refine ⟨(d + 1) :: ds, .cons (by omega) h2, ?_⟩
        rw [newDeltas_cons, if_pos (by omega)]
        simp
      · have : d = t := by omega
        subst this
        obtain ⟨p, g1, g2⟩ := ih h2 (fun hc => hne (by rw [hc]))
        refine ⟨d :: p, .cons h1 g1, ?_⟩
        rw [newDeltas_cons, List.mem_append]
        exact .inr (List.mem_map.2 ⟨_, g2, rfl⟩)

theorem Below.sum_le {top delta : List Nat} (h : Below top delta) : delta.sum ≤ top.sum := by
  induction h with
  | nil => exact le_refl _
  | cons h1 _ ih => simp only [List.sum_cons]; omega

theorem Below.eq_of_sum {top delta : List Nat} (h : Below top delta) (hs : top.sum ≤ delta.sum) : delta = top := by
  induction h with
  | nil => rfl
  | @cons d t ds ts h1 h2 ih =>
    simp only [List.sum_cons] at hs
    have := Below.sum_le h2
    rw [ih (by omega), show d = t by omega]

theorem exists_belowList (top : List Nat) : ∃ A : List (List Nat), ∀ d, Below top d ↔ d ∈ A := by
  refine ⟨(top.map (fun t => (List.range t).map (· + 1))).sections, fun d => ?_⟩
  rw [List.mem_sections, List.forall₂_map_right_iff, Below]
  have : (fun d t => 1 ≤ d ∧ d ≤ t) = fun (a c : Nat) => a ∈ (List.range c).map (· + 1) := by
    funext a c
    rw [List.mem_map, eq_iff_iff]
    constructor
    · rintro ⟨h1, h2⟩
      exact ⟨a - 1, List.mem_range.2 (by omega), by omega⟩
    · rintro ⟨b, hb, rfl⟩
      rw [List.mem_range] at hb
      omega
  rw [this]

/-- What holds of the processed vectors `P`, the queue `Q` and the set `S` of seen vectors. -/
structure QueueInv (top : List Nat) (P Q S : List (List Nat)) : Prop where
  nodup : (P ++ Q).Nodup
  below : ∀ x ∈ P ++ Q, Below top x
  mem : ∀ x, x ∈ P ++ Q ↔ x = top ∨ x ∈ S
  lt : ∀ x ∈ S, x.sum < top.sum

theorem enqueue_inv {top : List Nat} {P Q S : List (List Nat)} (h : QueueInv top P Q S) {c : List Nat} (hc : Below top c)
    (hs : c.sum < top.sum) : QueueInv top P (enqueue (Q, S) c).1 (enqueue (Q, S) c).2 ∧ c ∈ (enqueue (Q, S) c).2 ∧
      S ⊆ (enqueue (Q, S) c).2 := by
  rw [enqueue]
  split
  · rename_i hm
    exact ⟨h, hm, fun _ hx => hx⟩
  · rename_i hm
    have hnot : c ∉ P ++ Q := by
      rw [h.mem]
      rintro (rfl | hc')
      · omega
      · exact hm hc'
    refine ⟨⟨?_, ?_, ?_, ?_⟩, by simp, fun x hx => by simp [hx]⟩
    · simp only
      rw [← List.append_assoc, List.nodup_append]
      refine ⟨h.nodup, by simp, ?_⟩
      rintro a ha b hb rfl
      rw [List.mem_singleton] at hb
      subst hb
      exact hnot ha
    · intro x hx
      simp only at hx
      rw [← List.append_assoc, List.mem_append, List.mem_singleton] at hx
      rcases hx with hx | rfl
      · exact h.below x hx
      · exact hc
    · intro x
      simp only
      rw [← List.append_assoc, List.mem_append, List.mem_singleton, h.mem, List.mem_cons]
      tauto
    · intro x hx
      simp only [List.mem_cons] at hx
      rcases hx with rfl | hx
      · exact hs
      · exact h.lt x hx

theorem foldl_enqueue {top : List Nat} {P : List (List Nat)} : ∀ {cs : List (List Nat)} {Q S : List (List Nat)},
    QueueInv top P Q S → (∀ c ∈ cs, Below top c ∧ c.sum < top.sum) →
    QueueInv top P (cs.foldl enqueue (Q, S)).1 (cs.foldl enqueue (Q, S)).2 ∧ (∀ c ∈ cs, c ∈ (cs.foldl enqueue (Q, S)).2) ∧
      S ⊆ (cs.foldl enqueue (Q, S)).2 := by
  intro cs
  induction cs with
  | nil => intro Q S h _; exact ⟨h, by simp, fun _ hx => hx⟩
  | cons c cs ih =>
    intro Q S h hcs
    obtain ⟨h1, h2, h3⟩ := enqueue_inv h (hcs c (by simp)).1 (hcs c (by simp)).2
    obtain ⟨g1, g2, g3⟩ := ih h1 (fun x hx => hcs x (by simp [hx]))
    rw [List.foldl_cons]
    refine ⟨g1, fun x hx => ?_, fun x hx => g3 (h3 hx)⟩
    rcases List.mem_cons.1 hx with rfl | hx
    · exact g3 h2
    · exact g2 x hx

theorem deltaLoop_spec {top : List Nat} {A : List (List Nat)} (hA : ∀ d, Below top d ↔ d ∈ A) (ht : Below top top) (fuel : Nat) :
    ∀ {P Q S : List (List Nat)}, QueueInv top P Q S → (∀ p ∈ P, ∀ c ∈ newDeltas p, c ∈ S) → A.length + 1 < fuel + P.length →
    ∃ R, deltaLoop fuel Q S = some R ∧ (P ++ R).Nodup ∧ ∀ x, x ∈ P ++ R ↔ Below top x := by
  induction fuel with
  | zero =>
    intro P Q S h hcl hf
    have h1 : (P ++ Q).Subperm A := List.subperm_of_subset h.nodup (fun x hx => (hA x).1 (h.below x hx))
    have := h1.length_le
    rw [List.length_append] at this
    omega
  | succ fuel ih =>
    intro P Q S h hcl hf
    cases Q with
    | nil =>
      refine ⟨[], rfl, h.nodup, fun x => ⟨h.below x, fun hx => ?_⟩⟩
      have key : ∀ k (x : List Nat), Below top x → top.sum - x.sum = k → x ∈ P ++ [] := by
        intro k
        induction k using Nat.strong_induction_on with
        | _ k ihk =>
          intro x hx hk
          by_cases hxt : x = top
          · rw [h.mem]; exact .inl hxt
          · obtain ⟨p, hp, hxp⟩ := exists_parent hx hxt
            have h1 := (newDeltas_below hp hxp).2
            have h2 := hp.sum_le
            have h3 := ihk (top.sum - p.sum) (by omega) p hp rfl
            rw [List.append_nil] at h3
            rw [h.mem]
            exact .inr (hcl p h3 x hxp)
      exact key _ x hx rfl
    | cons delta Q =>
      have hb : Below top delta := h.below delta (by simp)
      have h' : QueueInv top (P ++ [delta]) Q S := by
        refine ⟨?_, ?_, ?_, h.lt⟩
        · rw [List.append_assoc]; exact h.nodup
        · rw [List.append_assoc]; exact h.below
        · rw [List.append_assoc]; exact h.mem
      obtain ⟨g1, g2, g3⟩ := foldl_enqueue (cs := newDeltas delta) h' (fun c hc => by
        obtain ⟨k1, k2⟩ := newDeltas_below hb hc
        have := hb.sum_le
        exact ⟨k1, by omega⟩)
      obtain ⟨R, r1, r2, r3⟩ := ih g1 (fun p hp c hc => by
          rw [List.mem_append, List.mem_singleton] at hp
          rcases hp with hp | rfl
          · exact g3 (hcl p hp c hc)
          · exact g2 c hc)
        (by rw [List.length_append, List.length_singleton]; omega)
      refine ⟨delta :: R, ?_, by rw [List.append_assoc] at r2; exact r2, fun x => by
        rw [← r3]; simp⟩
      rw [deltaLoop, r1]
      rfl

theorem topDelta_pos : ∀ m, Below (topDelta m) (topDelta m)
  | 0 => .nil
  | 1 => .nil
  | m + 2 => .cons (by omega) (topDelta_pos m)

theorem deltaLoop_top (m : Nat) : ∃ N R, (∀ fuel, N ≤ fuel → deltaLoop fuel [topDelta m] [] = some R) ∧ R.Nodup ∧
    ∀ x, x ∈ R ↔ Below (topDelta m) x := by
  obtain ⟨A, hA⟩ := exists_belowList (topDelta m)
  have hinv : QueueInv (topDelta m) [] [topDelta m] [] := by
    refine ⟨by simp, ?_, by simp, by simp⟩
    intro x hx
    simp only [List.nil_append, List.mem_singleton] at hx
    subst hx
    exact topDelta_pos m
  have key : ∀ fuel, A.length + 2 ≤ fuel → ∃ R, deltaLoop fuel [topDelta m] [] = some R ∧ R.Nodup ∧
      ∀ x, x ∈ R ↔ Below (topDelta m) x := by
    intro fuel hf
    obtain ⟨R, h1, h2, h3⟩ := deltaLoop_spec hA (topDelta_pos m) fuel hinv (by simp) (by simp; omega)
    exact ⟨R, h1, by simpa using h2, by simpa using h3⟩
  have mono : ∀ fuel Q S R, deltaLoop fuel Q S = some R → deltaLoop (fuel + 1) Q S = some R := by
    intro fuel
    induction fuel with
    | zero => intro Q S R h; simp [deltaLoop] at h
    | succ fuel ih =>
      intro Q S R h
      cases Q with
      | nil => exact h
      | cons d Q =>
        rw [deltaLoop] at h ⊢
        simp only [Option.map_eq_some_iff] at h ⊢
        obtain ⟨a, ha, rfl⟩ := h
        exact ⟨a, ih _ _ _ ha, rfl⟩
  obtain ⟨R, h1, h2, h3⟩ := key _ le_rfl
  refine ⟨A.length + 2, R, fun fuel hf => ?_, h2, h3⟩
  obtain ⟨k, rfl⟩ := Nat.exists_eq_add_of_le hf
  clear hf
  induction k with
  | zero => exact h1
  | succ k ih => exact mono _ _ _ _ ih

/-! ### perfect matchings -/

/-- `w` is an involution that maps each number of `S` to another one of `S` and fixes the other positive numbers. -/
structure Matching (S : List Nat) (w : SPerm) : Prop where
  inv : ∀ a, w.call (w.call a) = a
  move : ∀ x ∈ S, w.call x ≠ x ∧ ∃ y ∈ S, w.call x = (y : Int)
  fix : ∀ x : Nat, 1 ≤ x → x ∉ S → w.call x = x

theorem call_neg (w : SPerm) (a : Int) : w.call (-a) = -w.call a := (call_odd w).neg a

theorem call_inj {w : SPerm} {a b : Int} (h : w.call a = w.call b) : a = b := (call_odd w).inj _ _ h

/-- Positive integers are natural numbers. -/
theorem ext_nat {u v : SPerm} (h : ∀ x : Nat, 1 ≤ x → u.call x = v.call x) : u = v := by
  refine ext_pos (fun x hx => ?_)
  have := h x.toNat (by omega)
  rwa [show ((x.toNat : Nat) : Int) = x by omega] at this

theorem inv_of_nat {w : SPerm} (h : ∀ x : Nat, 1 ≤ x → w.call (w.call x) = x) (a : Int) : w.call (w.call a) = a := by
  rcases lt_trichotomy a 0 with ha | rfl | ha
  · have := h (-a).toNat (by omega)
    rw [show (((-a).toNat : Nat) : Int) = -a by omega, call_neg, call_neg] at this
    omega
  · rw [(call_odd w).zero, (call_odd w).zero]
  · have := h a.toNat (by omega)
    rwa [show ((a.toNat : Nat) : Int) = a by omega] at this

theorem mem_eraseIdx_nodup {l : List Nat} (hn : l.Nodup) {i : Nat} (hi : i < l.length) (x : Nat) :
    x ∈ l.eraseIdx i ↔ x ∈ l ∧ x ≠ l[i] := by
  have h := List.getElem_cons_eraseIdx_perm hi
  have hn' := h.nodup_iff.2 hn
  rw [List.nodup_cons] at hn'
  rw [← h.mem_iff, List.mem_cons]
  constructor
  · intro hx
    exact ⟨.inr hx, fun hc => hn'.1 (hc ▸ hx)⟩
  · rintro ⟨rfl | hx, hne⟩
    · exact absurd rfl hne
    · exact hx

/-- Taking away the cycle of the first number. -/
theorem Matching.tail {a : Nat} {rest : List Nat} (hpos : ∀ x ∈ a :: rest, 1 ≤ x) (hn : (a :: rest).Nodup) {i : Nat}
    (hi : i < rest.length) {w : SPerm} (h : Matching (a :: rest) w) (hw : w.call a = (rest[i] : Int)) :
    Matching (rest.eraseIdx i) (mul (reflectionT a rest[i]) w) := by
  obtain ⟨b, hb⟩ : ∃ b, rest[i] = b := ⟨_, rfl⟩
  have hbm : b ∈ rest := hb ▸ List.getElem_mem hi
  rw [List.nodup_cons] at hn
  have ha1 := hpos a (by simp)
  have hb1 := hpos b (by simp [hbm])
  have hmem := mem_eraseIdx_nodup hn.2 hi
  rw [hb] at hw hmem ⊢
  have hwb : w.call b = a := by rw [← hw, h.inv]
  have hab : a ≠ b := fun hc => hn.1 (hc ▸ hbm)
  have hcall : ∀ x : Nat, (mul (reflectionT a b) w).call x = tFun a b (w.call x) := by
    intro x; rw [call_mul, call_reflectionT ha1 hb1]
  have hne : ∀ x : Nat, x ≠ a → x ≠ b → w.call x ≠ a ∧ w.call x ≠ b := by
    intro x h1 h2
    constructor
    · intro hc
      rw [← hwb] at hc
      have := call_inj hc
      omega
    · intro hc
      rw [← hw] at hc
      have := call_inj hc
      omega
  have hsub : ∀ x : Nat, 1 ≤ x → ∃ y : Nat, 1 ≤ y ∧ w.call x = y := by
    intro x hx
    by_cases hS : x ∈ a :: rest
    · obtain ⟨y, hy, he⟩ := (h.move x hS).2
      exact ⟨y, hpos y hy, he⟩
    · exact ⟨x, hx, h.fix x hx hS⟩
  have hsame : ∀ x : Nat, 1 ≤ x → x ≠ a → x ≠ b → (mul (reflectionT a b) w).call x = w.call x := by
    intro x hx h1 h2
    obtain ⟨h3, h4⟩ := hne x h1 h2
    obtain ⟨y, hy, he⟩ := hsub x hx
    rw [hcall, tFun, if_neg h3, if_neg h4, if_neg (by omega), if_neg (by omega)]
  have hfa : (mul (reflectionT a b) w).call a = a := by rw [hcall, hw, tFun]; split <;> omega
  have hfb : (mul (reflectionT a b) w).call b = b := by rw [hcall, hwb, tFun]; split <;> omega
  refine ⟨inv_of_nat (fun x hx => ?_), fun x hx => ?_, fun x hx hxS => ?_⟩
  · by_cases h1 : x = a
    · subst h1; rw [hfa, hfa]
    by_cases h2 : x = b
    · subst h2; rw [hfb, hfb]
    obtain ⟨y, hy, he⟩ := hsub x hx
    obtain ⟨h3, h4⟩ := hne x h1 h2
    rw [hsame x hx h1 h2, he, hsame y hy (by omega) (by omega), ← he, h.inv]
  · rw [hmem] at hx
    have h1 : x ≠ a := by rintro rfl; exact hn.1 hx.1
    obtain ⟨k1, y, hy, he⟩ := h.move x (by simp [hx.1])
    rw [hsame x (hpos x (by simp [hx.1])) h1 hx.2]
    refine ⟨k1, y, ?_, he⟩
    obtain ⟨h3, h4⟩ := hne x h1 hx.2
    rw [hmem]
    rcases List.mem_cons.1 hy with rfl | hy
    · exact absurd he h3
    · exact ⟨hy, by rintro rfl; exact h4 he⟩
  · by_cases h1 : x = a
    · subst h1; exact hfa
    by_cases h2 : x = b
    · subst h2; exact hfb
    rw [hsame x hx h1 h2]
    refine h.fix x hx ?_
    rw [List.mem_cons]
    rintro (hc | hc)
    · exact h1 hc
    · exact hxS ((hmem x).2 ⟨hc, h2⟩)

/-- Putting the cycle back. -/
theorem Matching.cons {a : Nat} {rest : List Nat} (hpos : ∀ x ∈ a :: rest, 1 ≤ x) (hn : (a :: rest).Nodup) {i : Nat}
    (hi : i < rest.length) {v : SPerm} (h : Matching (rest.eraseIdx i) v) :
    Matching (a :: rest) (mul (reflectionT a rest[i]) v) ∧ (mul (reflectionT a rest[i]) v).call a = (rest[i] : Int) := by
  obtain ⟨b, hb⟩ : ∃ b, rest[i] = b := ⟨_, rfl⟩
  have hbm : b ∈ rest := hb ▸ List.getElem_mem hi
  rw [List.nodup_cons] at hn
  have ha1 := hpos a (by simp)
  have hb1 := hpos b (by simp [hbm])
  have hmem := mem_eraseIdx_nodup hn.2 hi
  rw [hb] at hmem ⊢
  have hab : a ≠ b := fun hc => hn.1 (hc ▸ hbm)
  have hva : v.call a = a := h.fix a ha1 (by rw [hmem]; rintro ⟨h1, _⟩; exact hn.1 h1)
  have hvb : v.call b = b := h.fix b hb1 (by rw [hmem]; rintro ⟨_, h1⟩; exact h1 rfl)
  have hcall : ∀ x : Nat, (mul (reflectionT a b) v).call x = tFun a b (v.call x) := by
    intro x; rw [call_mul, call_reflectionT ha1 hb1]
  have hne : ∀ x : Nat, x ≠ a → x ≠ b → v.call x ≠ a ∧ v.call x ≠ b := by
    intro x h1 h2
    constructor
    · intro hc
      rw [← hva] at hc
      have := call_inj hc
      omega
    · intro hc
      rw [← hvb] at hc
      have := call_inj hc
      omega
  have hsub : ∀ x : Nat, 1 ≤ x → ∃ y : Nat, 1 ≤ y ∧ v.call x = y := by
    intro x hx
    by_cases hS : x ∈ rest.eraseIdx i
    · obtain ⟨y, hy, he⟩ := (h.move x hS).2
      exact ⟨y, hpos y (by rw [hmem] at hy; simp [hy.1]), he⟩
    · exact ⟨x, hx, h.fix x hx hS⟩
  have hsame : ∀ x : Nat, 1 ≤ x → x ≠ a → x ≠ b → (mul (reflectionT a b) v).call x = v.call x := by
    intro x hx h1 h2
    obtain ⟨h3, h4⟩ := hne x h1 h2
    obtain ⟨y, hy, he⟩ := hsub x hx
    rw [hcall, tFun, if_neg h3, if_neg h4, if_neg (by omega), if_neg (by omega)]
  have hfa : (mul (reflectionT a b) v).call a = b := by rw [hcall, hva, tFun, if_pos rfl]
  have hfb : (mul (reflectionT a b) v).call b = a := by rw [hcall, hvb, tFun]; split <;> omega
  refine ⟨⟨inv_of_nat (fun x hx => ?_), fun x hx => ?_, fun x hx hxS => ?_⟩, hfa⟩
  · by_cases h1 : x = a
    · subst h1; rw [hfa, hfb]
    by_cases h2 : x = b
    · subst h2; rw [hfb, hfa]
    obtain ⟨y, hy, he⟩ := hsub x hx
    obtain ⟨h3, h4⟩ := hne x h1 h2
    rw [hsame x hx h1 h2, he, hsame y hy (by omega) (by omega), ← he, h.inv]
  · by_cases h1 : x = a
    · subst h1; rw [hfa]; exact ⟨by omega, b, by simp [hbm], rfl⟩
    by_cases h2 : x = b
    · subst h2; rw [hfb]; exact ⟨by omega, a, by simp, rfl⟩
    have hx' : x ∈ rest := by rcases List.mem_cons.1 hx with h3 | h3; exacts [absurd h3 h1, h3]
    rw [hsame x (hpos x hx) h1 h2]
    obtain ⟨k1, y, hy, he⟩ := h.move x ((hmem x).2 ⟨hx', h2⟩)
    exact ⟨k1, y, by rw [hmem] at hy; simp [hy.1], he⟩
  · rw [List.mem_cons, not_or] at hxS
    have h2 : x ≠ b := by rintro rfl; exact hxS.2 hbm
    rw [hsame x hx hxS.1 h2]
    exact h.fix x hx (by rw [hmem]; rintro ⟨h3, _⟩; exact hxS.2 h3)

theorem createLoop_step (d : Nat) (delta S : List Nat) (w : SPerm) : createLoop (d :: delta) S w =
    S[0]?.bind (fun a => S[d]?.bind (fun b => (reflectionT? a b).bind (fun t =>
      createLoop delta ((S.take d).drop 1 ++ S.drop (d + 1)) (mul w t)))) := rfl

theorem createLoop_mul (delta : List Nat) : ∀ (S : List Nat) (w u : SPerm),
    createLoop delta S (mul w u) = (createLoop delta S u).map (mul w) := by
  induction delta with
  | nil => intro S w u; rfl
  | cons d delta ih =>
    intro S w u
    rw [createLoop_step, createLoop_step]
    simp only [mul_assoc', ih, Option.map_bind, Function.comp_def]

theorem createLoop_eq (delta : List Nat) (S : List Nat) (w : SPerm) :
    createLoop delta S w = (createLoop delta S identity).map (mul w) := by
  rw [← createLoop_mul, mul_one']

theorem createLoop_cons {a : Nat} {rest : List Nat} (hpos : ∀ x ∈ a :: rest, 1 ≤ x) {d : Nat} (h1 : 1 ≤ d) (h2 : d ≤ rest.length)
    (delta : List Nat) : createLoop (d :: delta) (a :: rest) identity =
      (createLoop delta (rest.eraseIdx (d - 1)) identity).map (mul (reflectionT a (rest[d - 1]'(by omega)))) := by
  obtain ⟨e, rfl⟩ : ∃ e, d = e + 1 := ⟨d - 1, by omega⟩
  rw [createLoop]
  have hb : rest[e]'(by omega) ∈ rest := List.getElem_mem _
  simp only [List.getElem?_cons_zero, List.getElem?_cons_succ, List.getElem?_eq_getElem (show e < rest.length by omega),
    Option.bind_eq_bind, Option.bind_some, List.take_succ_cons, List.drop_succ_cons, List.drop_zero, Nat.add_sub_cancel]
  rw [reflectionT?_eq (hpos a (by simp)) (hpos _ (by simp [hb])), Option.bind_some, createLoop_eq, one_mul',
    List.eraseIdx_eq_take_drop_succ]

theorem createLoop_sound (m : Nat) : ∀ {S : List Nat} {delta : List Nat}, S.length = m → m % 2 = 0 → (∀ x ∈ S, 1 ≤ x) → S.Nodup →
    Below (topDelta m) delta → ∃ w, createLoop delta S identity = some w ∧ Matching S w := by
  induction m using Nat.strong_induction_on with
  | _ m ih =>
    intro S delta hl hm hpos hn hd
    match m with
    | 0 =>
      cases hd
      rw [List.length_eq_zero_iff] at hl
      subst hl
      exact ⟨identity, rfl, ⟨fun a => by simp [call_identity], by simp, fun x _ _ => call_identity _⟩⟩
    | 1 => omega
    | m + 2 =>
      cases hd with
      | @cons d _ ds _ h1 h2 =>
        cases S with
        | nil => simp at hl
        | cons a rest =>
          rw [List.length_cons] at hl
          have hi : d - 1 < rest.length := by omega
          have hsub : rest.eraseIdx (d - 1) ⊆ rest := fun x hx => List.mem_of_mem_eraseIdx hx
          obtain ⟨v, g1, g2⟩ := ih m (by omega) (S := rest.eraseIdx (d - 1)) (delta := ds)
            (by rw [List.length_eraseIdx_of_lt hi]; omega) (by omega) (fun x hx => hpos x (by simp [hsub hx]))
            ((List.nodup_cons.1 hn).2.eraseIdx _) h2
          rw [createLoop_cons hpos h1.1 (by omega), g1]
          exact ⟨_, rfl, (g2.cons hpos hn hi).1⟩

theorem createLoop_inj (m : Nat) : ∀ {S : List Nat} {delta delta' : List Nat}, S.length = m → m % 2 = 0 → (∀ x ∈ S, 1 ≤ x) → S.Nodup →
    Below (topDelta m) delta → Below (topDelta m) delta' → createLoop delta S identity = createLoop delta' S identity → delta = delta' := by
  induction m using Nat.strong_induction_on with
  | _ m ih =>
    intro S delta delta' hl hm hpos hn hd hd' he
    match m with
    | 0 => cases hd; cases hd'; rfl
    | 1 => omega
    | m + 2 =>
      cases hd with
      | @cons d _ ds _ h1 h2 =>
        cases hd' with
        | @cons d' _ ds' _ h1' h2' =>
          cases S with
          | nil => simp at hl
          | cons a rest =>
            rw [List.length_cons] at hl
            have hsub : ∀ i, rest.eraseIdx i ⊆ rest := fun i x hx => List.mem_of_mem_eraseIdx hx
            have hi : d - 1 < rest.length := by omega
            have hi' : d' - 1 < rest.length := by omega
            have hm2 : m % 2 = 0 := by omega
            obtain ⟨v, g1, g2⟩ := createLoop_sound m (S := rest.eraseIdx (d - 1)) (delta := ds)
              (by rw [List.length_eraseIdx_of_lt hi]; omega) hm2 (fun x hx => hpos x (by simp [hsub _ hx]))
              ((List.nodup_cons.1 hn).2.eraseIdx _) h2
            obtain ⟨v', g1', g2'⟩ := createLoop_sound m (S := rest.eraseIdx (d' - 1)) (delta := ds')
              (by rw [List.length_eraseIdx_of_lt hi']; omega) hm2 (fun x hx => hpos x (by simp [hsub _ hx]))
              ((List.nodup_cons.1 hn).2.eraseIdx _) h2'
            rw [createLoop_cons hpos h1.1 (by omega), createLoop_cons hpos h1'.1 (by omega), g1, g1',
              Option.map_some, Option.map_some, Option.some.injEq] at he
            have k1 := (g2.cons hpos hn hi).2
            have k2 := (g2'.cons hpos hn hi').2
            rw [he, k2] at k1
            have k3 : d' - 1 = d - 1 := (List.nodup_cons.1 hn).2.getElem_inj_iff.1 (by exact_mod_cast k1)
            have k4 : d' = d := by omega
            subst k4
            have k5 : v = v' := by
              refine ext_call (fun x => ?_)
              have := congrArg (fun w => SPerm.call w x) he
              simp only [call_mul] at this
              exact call_inj this
            subst k5
            rw [ih m (by omega) (S := rest.eraseIdx (d' - 1)) (by rw [List.length_eraseIdx_of_lt hi]; omega) hm2
              (fun x hx => hpos x (by simp [hsub _ hx])) ((List.nodup_cons.1 hn).2.eraseIdx _) h2 h2' (g1.trans g1'.symm)]

theorem reflectionT_mul_self {a b : Nat} (ha : 1 ≤ a) (hb : 1 ≤ b) (w : SPerm) :
    mul (reflectionT a b) (mul (reflectionT a b) w) = w := by
  refine ext_call (fun x => ?_)
  rw [call_mul, call_mul, call_reflectionT ha hb, call_reflectionT ha hb]
  obtain ⟨y, hy⟩ : ∃ y, w.call x = y := ⟨_, rfl⟩
  rw [hy]
  unfold tFun
  (repeat' split) <;> omega

theorem createLoop_complete (m : Nat) : ∀ {S : List Nat} {w : SPerm}, S.length = m → (∀ x ∈ S, 1 ≤ x) → S.Nodup → Matching S w →
    m % 2 = 0 ∧ ∃ delta, Below (topDelta m) delta ∧ createLoop delta S identity = some w := by
  induction m using Nat.strong_induction_on with
  | _ m ih =>
    intro S w hl hpos hn hw
    cases S with
    | nil =>
      simp only [List.length_nil] at hl
      subst hl
      refine ⟨rfl, [], .nil, ?_⟩
      rw [createLoop, Option.some.injEq]
      exact ext_nat (fun x hx => by rw [call_identity, hw.fix x hx (by simp)])
    | cons a rest =>
      rw [List.length_cons] at hl
      obtain ⟨k1, b, hb, k2⟩ := hw.move a (by simp)
      have hb' : b ∈ rest := by
        rcases List.mem_cons.1 hb with rfl | hb
        · exact absurd k2 k1
        · exact hb
      obtain ⟨i, hi, rfl⟩ := List.getElem_of_mem hb'
      have hsub : rest.eraseIdx i ⊆ rest := fun x hx => List.mem_of_mem_eraseIdx hx
      have ht := hw.tail hpos hn hi k2
      have hlen : (rest.eraseIdx i).length = m - 2 := by rw [List.length_eraseIdx_of_lt hi]; omega
      obtain ⟨g1, delta, g2, g3⟩ := ih (m - 2) (by omega) hlen (fun x hx => hpos x (by simp [hsub hx]))
        ((List.nodup_cons.1 hn).2.eraseIdx _) ht
      obtain ⟨m', rfl⟩ : ∃ m', m = m' + 2 := ⟨m - 2, by omega⟩
      refine ⟨by omega, (i + 1) :: delta, .cons (by omega) g2, ?_⟩
      rw [createLoop_cons hpos (by omega) (by omega)]
      simp only [Nat.add_sub_cancel]
      rw [g3, Option.map_some, reflectionT_mul_self (hpos a (by simp)) (hpos _ hb)]

end Verif.Perm
