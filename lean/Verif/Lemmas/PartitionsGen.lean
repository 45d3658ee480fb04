import Verif.Lemmas.Partitions

set_option linter.unusedSectionVars false

/-! Lemmas about the generators of partitions and compositions. -/

namespace Verif.Partition

open Part

attribute [-simp] List.getD_eq_getElem?_getD
attribute [local simp] List.getD_cons_zero List.getD_cons_succ

/-! ### compositions -/

theorem mem_compositions (n : Nat) (alpha : List Nat) :
    alpha ∈ compositions n ↔ (∀ a ∈ alpha, 0 < a) ∧ alpha.sum = n := by
  induction n using Nat.strong_induction_on generalizing alpha with
  | _ n ih =>
    rw [compositions]
    split
    · rename_i h
      subst h
      constructor
      · intro h; simp at h; subst h; simp
      · rintro ⟨h1, h2⟩
        cases alpha with
        | nil => simp
        | cons a t =>
          have := h1 a (by simp)
          simp at h2; omega
    · rename_i h
      simp only [List.mem_flatMap, List.mem_range, List.mem_map]
      constructor
      · rintro ⟨i, hi, e, he, rfl⟩
        rw [ih _ (by omega)] at he
        refine ⟨?_, by simp; omega⟩
        intro a ha
        rcases List.mem_cons.1 ha with rfl | ha
        · omega
        · exact he.1 a ha
      · rintro ⟨h1, h2⟩
        cases alpha with
        | nil => simp at h2; omega
        | cons a t =>
          have ha := h1 a (by simp)
          simp at h2
          refine ⟨a - 1, by omega, t, ?_, by congr; omega⟩
          rw [ih _ (by omega)]
          exact ⟨fun x hx => h1 x (by simp [hx]), by omega⟩

theorem nodup_flatMap_cons {β : Type*} (l : List β) (hl : l.Nodup) (g : β → Nat) (hg : ∀ x y, g x = g y → x = y)
    (f : β → List (List Nat)) (hf : ∀ i ∈ l, (f i).Nodup) :
    (l.flatMap (fun i => (f i).map (fun e => g i :: e))).Nodup := by
  rw [List.nodup_flatMap]
  refine ⟨fun i hi => (hf i hi).map (by intro x y h; simpa using h), ?_⟩
  refine hl.imp_of_mem ?_
  intro a b ha hb hab
  simp only [Function.onFun, List.disjoint_left, List.mem_map]
  rintro x ⟨e, _, rfl⟩ ⟨e', _, h⟩
  simp at h
  exact hab (hg _ _ h.1.symm)

theorem nodup_compositions (n : Nat) : (compositions n).Nodup := by
  induction n using Nat.strong_induction_on with
  | _ n ih =>
    rw [compositions]
    split
    · simp
    · exact nodup_flatMap_cons _ List.nodup_range _ (by omega) _ (fun i _ => ih _ (by omega))

/-! ### generate -/

/-- Only 4-tuples are ever used as keys. -/
def OnlyFour (C : GenCache) : Prop := ∀ k ∈ C.keys, ∃ n mp s e, k = GenKey.four n mp s e

theorem onlyFour_set {C : GenCache} (h : OnlyFour C) (n : Nat) (mp : Option Nat) (s e : Bool)
    (v : List (List Nat)) : OnlyFour (C.set (.four n mp s e) v) := by
  intro k hk
  have : k ∈ (C.set (.four n mp s e) v).items.map Prod.fst := hk
  rw [Dict.set, Dict.insertItem_keys] at this
  split at this
  · exact h k this
  · rcases List.mem_append.1 this with h' | h'
    · exact h k h'
    · simp at h'; exact ⟨_, _, _, _, h'⟩

/-- What a partition yielded by `generate` looks like. -/
def GenSpec (strict even : Bool) (n : Nat) (mp mr : Option Nat) (mu : List Nat) : Prop :=
  IsPartition mu ∧ mu.sum = n ∧ (∀ m, mp = some m → ∀ a ∈ mu, a ≤ m) ∧ (∀ m, mr = some m → mu.length ≤ m) ∧
    (strict = true → mu.Pairwise (· > ·)) ∧ (even = true → ∀ a ∈ mu, a % 2 = 0)

theorem length_le_sum {mu : List Nat} (h : ∀ a ∈ mu, 0 < a) : mu.length ≤ mu.sum := by
  induction mu with
  | nil => simp
  | cons a t ih =>
    have := h a (by simp)
    have := ih (fun x hx => h x (by simp [hx]))
    simp; omega

theorem genSpec_cons {strict even : Bool} {n a : Nat} {mp mr : Option Nat} {t : List Nat} :
    GenSpec strict even n mp mr (a :: t) ↔
      (1 ≤ a ∧ a ≤ n ∧ (∀ m, mp = some m → a ≤ m) ∧ (∀ m, mr = some m → 1 ≤ m) ∧
        (even = true → a % 2 = 0)) ∧ (strict = true → (a :: t).Pairwise (· > ·)) ∧
        GenSpec strict even (n - a) (some a) (some (capBound n mr - 1)) t := by
  constructor
  · rintro ⟨⟨h1, h2⟩, h3, h4, h5, h6, h7⟩
    have ha : 0 < a := h2 a (by simp)
    simp only [List.sum_cons] at h3
    refine ⟨⟨ha, by omega, fun m hm => h4 m hm a (by simp), fun m hm => ?_, fun he => h7 he a (by simp)⟩, h6, ?_⟩
    · have := h5 m hm; simp at this; omega
    · refine ⟨⟨h1.of_cons, fun x hx => h2 x (by simp [hx])⟩, by omega, ?_, ?_, fun hs => (h6 hs).of_cons,
        fun he x hx => h7 he x (by simp [hx])⟩
      · rintro m hm x hx
        cases hm
        exact List.rel_of_pairwise_cons h1 hx
      · rintro m hm
        cases hm
        have hlen := length_le_sum (mu := t) (fun x hx => h2 x (by simp [hx]))
        cases mr with
        | none => simp [capBound]; omega
        | some m =>
          have := h5 m rfl
          simp at this
          simp only [capBound]; split <;> omega
  · rintro ⟨⟨h1, h2, h3, h4, h5⟩, h6, ⟨h7, h8⟩, h9, h10, h11, h12, h13⟩
    have h10' := h10 a rfl
    refine ⟨⟨List.pairwise_cons.2 ⟨fun x hx => h10' x hx, h7⟩, ?_⟩, by simp; omega, ?_, ?_, h6, ?_⟩
    · intro x hx
      rcases List.mem_cons.1 hx with rfl | hx
      · omega
      · exact h8 x hx
    · intro m hm x hx
      rcases List.mem_cons.1 hx with rfl | hx
      · exact h3 m hm
      · exact (h10' x hx).trans (h3 m hm)
    · intro m hm
      subst hm
      have h := h11 _ rfl
      have := h4 m rfl
      simp only [capBound] at h
      simp only [List.length_cons]
      split at h <;> omega
    · intro he x hx
      rcases List.mem_cons.1 hx with rfl | hx
      · exact h5 he
      · exact h13 he x hx

/-- A fold whose state is a list being extended and a cache being updated. -/
theorem genFold_spec (P : GenCache → Prop) (l : List Nat)
    (f : Nat → GenCache → Option (List (List Nat) × GenCache))
    (Q : Nat → List (List Nat) → Prop)
    (hf : ∀ k ∈ l, ∀ C, P C → ∃ out C', f k C = some (out, C') ∧ P C' ∧ Q k out) :
    ∀ (acc : List (List Nat)) (C : GenCache), P C →
      ∃ (outs : List (List (List Nat))) (C' : GenCache),
        l.foldlM (fun (st : List (List Nat) × GenCache) k =>
          (f k st.2).map (fun r => (st.1 ++ r.1, r.2))) (acc, C) = some (acc ++ outs.flatten, C') ∧ P C' ∧
        List.Forall₂ Q l outs := by
  induction l with
  | nil => intro acc C hC; exact ⟨[], C, by simp, hC, List.Forall₂.nil⟩
  | cons k l ih =>
    intro acc C hC
    obtain ⟨out, C', h1, h2, h3⟩ := hf k (by simp) C hC
    obtain ⟨outs, C'', h4, h5, h6⟩ := ih (fun k hk => hf k (by simp [hk])) (acc ++ out) C' h2
    refine ⟨out :: outs, C'', ?_, h5, List.Forall₂.cons h3 h6⟩
    rw [List.foldlM_cons]
    simp only [h1, Option.map_some, Option.bind_eq_bind, Option.bind_some, h4]
    simp

theorem forall₂_flatten_mem {Q : Nat → List (List Nat) → Prop} {l : List Nat} {outs : List (List (List Nat))}
    (h : List.Forall₂ Q l outs) (R : Nat → List Nat → Prop) (hQ : ∀ k out, Q k out → ∀ x, x ∈ out ↔ R k x)
    (x : List Nat) : x ∈ outs.flatten ↔ ∃ k ∈ l, R k x := by
  induction h with
  | nil => simp
  | cons h1 _ ih => simp [ih, hQ _ _ h1]

theorem forall₂_flatten_nodup {Q : Nat → List (List Nat) → Prop} {l : List Nat} {outs : List (List (List Nat))}
    (h : List.Forall₂ Q l outs) (hl : l.Nodup) (R : Nat → List Nat → Prop)
    (hQ : ∀ k out, Q k out → out.Nodup ∧ ∀ x, x ∈ out ↔ R k x)
    (hR : ∀ k k' x, R k x → R k' x → k = k') : outs.flatten.Nodup := by
  induction h with
  | nil => simp
  | cons h1 h2 ih =>
    rename_i k out l outs
    rw [List.nodup_cons] at hl
    rw [List.flatten_cons, List.nodup_append]
    refine ⟨(hQ _ _ h1).1, ih hl.2, ?_⟩
    rintro x hx y hy rfl
    rw [forall₂_flatten_mem h2 R (fun k out h => (hQ k out h).2)] at hy
    obtain ⟨k', hk', hR'⟩ := hy
    have := hR _ _ _ (((hQ _ _ h1).2 x).1 hx) hR'
    subst this
    exact hl.1 hk'

theorem generate_spec (strict even : Bool) (n : Nat) :
    ∀ (mp mr : Option Nat) (C : GenCache), OnlyFour C →
      ∃ l C', generate strict even n mp mr C = some (l, C') ∧ OnlyFour C' ∧ l.Nodup ∧
        ∀ mu, mu ∈ l ↔ GenSpec strict even n mp mr mu := by
  induction n using Nat.strong_induction_on with
  | _ n ih =>
    intro mp mr C hC
    rw [generate.eq_def]
    split
    · rename_i h
      subst h
      refine ⟨_, _, rfl, hC, by simp, ?_⟩
      intro mu
      constructor
      · intro h
        simp at h
        subst h
        refine ⟨⟨by simp, by simp⟩, by simp, by simp, by simp, by simp, by simp⟩
      · rintro ⟨⟨h1, h2⟩, h3, -⟩
        cases mu with
        | nil => simp
        | cons a t =>
          have := h2 a (by simp)
          simp at h3; omega
    · rename_i hn
      have hnone : C.get? (.five n mp mr strict even) = none := by
        rw [Dict.get?_eq_none]
        intro hk
        obtain ⟨_, _, _, _, h⟩ := hC _ hk
        cases h
      rw [hnone, if_neg (by simp)]
      -- the loop
      have hmp : ∀ a, a ≤ capBound n mp ↔ a ≤ n ∧ ∀ m, mp = some m → a ≤ m := by
        intro a
        cases mp with
        | none => simp [capBound]
        | some m => simp [capBound]; split <;> omega
      simp only []
      by_cases hr : capBound n mr > 0
      · rw [if_pos hr]
        have key := genFold_spec OnlyFour (List.range (capBound n mp))
          (fun k C => if even && (k + 1) % 2 != 0 then some ([], C) else
            (generate strict even (n - (k + 1)) (some (k + 1))
              (some (capBound n mr - 1)) C).map (fun r =>
                ((r.1.map (fun mu => (k + 1) :: mu)).filter (fun nu => !strict || isStrictPartition nu), r.2)))
          (fun k out => out.Nodup ∧ ∀ x, x ∈ out ↔
            (even = true → (k + 1) % 2 = 0) ∧ ∃ t, x = (k + 1) :: t ∧
              (strict = true → x.Pairwise (· > ·)) ∧ GenSpec strict even (n - (k + 1)) (some (k + 1))
                (some (capBound n mr - 1)) t)
          (by
            intro k hk C hC
            split
            · rename_i he
              simp at he
              refine ⟨[], C, rfl, hC, by simp, ?_⟩
              intro x
              simp [he.1]
              intro h; omega
            · rename_i he
              obtain ⟨l, C', h1, h2, h3, h4⟩ := ih (n - (k + 1)) (by omega) (some (k + 1))
                (some (capBound n mr - 1)) C hC
              rw [h1]
              refine ⟨_, _, rfl, h2, ?_, ?_⟩
              · exact (h3.map (by intro x y h; simpa using h)).filter _
              · intro x
                simp only [List.mem_filter, List.mem_map, h4, Bool.or_eq_true, Bool.not_eq_true',
                  isStrictPartition_iff]
                constructor
                · rintro ⟨⟨t, ht, rfl⟩, hs⟩
                  refine ⟨?_, t, rfl, ?_, ht⟩
                  · intro he'
                    simp [he'] at he
                    exact he
                  · intro hs'
                    rcases hs with hs | hs
                    · simp [hs'] at hs
                    · exact hs
                · rintro ⟨h1, t, rfl, h2, h3⟩
                  refine ⟨⟨t, h3, rfl⟩, ?_⟩
                  cases strict
                  · simp
                  · right; exact h2 rfl) [] C hC
        obtain ⟨outs, C', h1, h2, h3⟩ := key
        have hstep : (fun (st : List (List Nat) × GenCache) k =>
            if even && (k + 1) % 2 != 0 then some st
            else
              (generate strict even (n - (k + 1)) (some (k + 1))
                (some (capBound n mr - 1)) st.2).map (fun r =>
                (st.1 ++ (r.1.map (fun mu => (k + 1) :: mu)).filter (fun nu => !strict || isStrictPartition nu),
                  r.2))) = (fun (st : List (List Nat) × GenCache) k =>
            ((fun k C => if even && (k + 1) % 2 != 0 then some ([], C) else
              (generate strict even (n - (k + 1)) (some (k + 1))
                (some (capBound n mr - 1)) C).map (fun r =>
                ((r.1.map (fun mu => (k + 1) :: mu)).filter (fun nu => !strict || isStrictPartition nu), r.2)))
                k st.2).map (fun r => (st.1 ++ r.1, r.2))) := by
          funext st k
          by_cases h : (even && (k + 1) % 2 != 0) = true
          · simp only [h, if_true, Option.map_some, List.append_nil]
          · simp only [h, Bool.false_eq_true, if_false, Option.map_map]; rfl
        rw [hstep, h1]
        refine ⟨_, _, rfl, onlyFour_set h2 _ _ _ _ _, ?_, ?_⟩
        · rw [List.nil_append]
          refine forall₂_flatten_nodup h3 List.nodup_range _ (fun k out h => h) ?_
          rintro k k' x ⟨_, t, rfl, _⟩ ⟨_, t', h, _⟩
          simp at h; omega
        · intro mu
          rw [List.nil_append, forall₂_flatten_mem h3 _ (fun k out h => h.2)]
          cases mu with
          | nil =>
            simp
            rintro ⟨_, h, _⟩
            simp at h; omega
          | cons a t =>
            rw [genSpec_cons]
            constructor
            · rintro ⟨k, hk, h1, t', h2, h3, h4⟩
              simp at h2
              obtain ⟨rfl, rfl⟩ := h2
              have := (hmp (k + 1)).1 (by simp at hk; omega)
              refine ⟨⟨by omega, this.1, this.2, ?_, h1⟩, h3, h4⟩
              intro m hm; subst hm; simp only [capBound] at hr; split at hr <;> omega
            · rintro ⟨⟨h1, h2, h3, h4, h5⟩, h6, h7⟩
              have := (hmp a).2 ⟨h2, h3⟩
              obtain ⟨k, rfl⟩ : ∃ k, a = k + 1 := ⟨a - 1, by omega⟩
              exact ⟨k, by simp; omega, h5, t, rfl, h6, h7⟩
      · rw [if_neg hr]
        refine ⟨_, _, rfl, onlyFour_set hC _ _ _ _ _, by simp, ?_⟩
        intro mu
        simp
        rintro ⟨⟨_, h2⟩, h3, _, h4, _⟩
        cases mr with
        | none => simp [capBound] at hr; omega
        | some m =>
          have := h4 m rfl
          simp only [capBound] at hr
          cases mu with
          | nil => simp at h3; omega
          | cons a t => simp at this; split at hr <;> omega

theorem allUpTo_spec (strict even : Bool) (n : Nat) (mp mr : Option Nat) (C : GenCache) (hC : OnlyFour C) :
    ∃ l C', allUpTo strict even n mp mr C = some (l, C') ∧ OnlyFour C' ∧ l.Nodup ∧
      ∀ mu, mu ∈ l ↔ mu.sum ≤ n ∧ GenSpec strict even mu.sum mp mr mu := by
  obtain ⟨outs, C', h1, h2, h3⟩ := genFold_spec OnlyFour (List.range (n + 1))
    (fun i C => generate strict even i mp mr C)
    (fun i out => out.Nodup ∧ ∀ mu, mu ∈ out ↔ GenSpec strict even i mp mr mu)
    (fun i _ C hC => by
      obtain ⟨l, C', h1, h2, h3, h4⟩ := generate_spec strict even i mp mr C hC
      exact ⟨l, C', h1, h2, h3, h4⟩) [] C hC
  refine ⟨outs.flatten, C', ?_, h2, ?_, ?_⟩
  · rw [allUpTo, h1]; simp
  · refine forall₂_flatten_nodup h3 List.nodup_range _ (fun k out h => h) ?_
    intro k k' x h h'
    rw [← h.2.1, h'.2.1]
  · intro mu
    rw [forall₂_flatten_mem h3 _ (fun k out h => h.2)]
    constructor
    · rintro ⟨k, hk, h⟩
      have := h.2.1
      subst this
      simp at hk
      exact ⟨by omega, h⟩
    · rintro ⟨h1, h2⟩
      exact ⟨mu.sum, by simp; omega, h2⟩

/-! ### subpartitions -/

theorem subpartitionsAux_spec (lb : List Nat) (strict : Bool) (mu : List Nat) (i : Nat) :
    (subpartitionsAux lb strict mu (i + 1)).Nodup ∧ ∀ lam, lam ∈ subpartitionsAux lb strict mu (i + 1) ↔
      lam.length = mu.length ∧ (∀ k, k < mu.length → lb.getD (i + k) 0 ≤ lam.getD k 0 ∧ lam.getD k 0 ≤ mu.getD k 0) ∧
      lam.Pairwise (· ≥ ·) ∧ (strict = true → ∀ k, 0 < lam.getD (k + 1) 0 → lam.getD (k + 1) 0 < lam.getD k 0) := by
  induction mu generalizing i with
  | nil =>
    refine ⟨by simp [subpartitionsAux], fun lam => ?_⟩
    simp only [subpartitionsAux, List.mem_singleton]
    constructor
    · rintro rfl; simp
    · intro h; simpa using h.1
  | cons ub mu ih =>
    obtain ⟨ihn, ihm⟩ := ih (i + 1)
    refine ⟨?_, fun lam => ?_⟩
    · rw [subpartitionsAux, List.nodup_flatMap]
      refine ⟨fun nu _ => (List.nodup_range' _).map (by intro x y h; simpa using h), ?_⟩
      refine ihn.imp ?_
      intro a b hab
      simp only [Function.onFun, List.disjoint_left, List.mem_map]
      rintro x ⟨e, _, rfl⟩ ⟨e', _, h⟩
      simp at h
      exact hab h.2.symm
    · simp only [subpartitionsAux, List.mem_flatMap, ihm, List.mem_map, List.mem_range'_1]
      constructor
      · rintro ⟨nu, ⟨h1, h2, h3, h4⟩, a, ha, rfl⟩
        rw [get_succ] at ha
        have ha0 : nu.getD 0 0 + (if strict ∧ 0 < nu.getD 0 0 then 1 else 0) ≤ a ∧ lb.getD i 0 ≤ a ∧ a ≤ ub := by
          cases nu with
          | nil => simp at ha ⊢; omega
          | cons b t =>
            simp at ha ⊢
            cases strict <;> simp at ha ⊢ <;> split at ha <;> (try split) <;> omega
        refine ⟨by simp [h1], ?_, ?_, ?_⟩
        · intro k hk
          cases k with
          | zero => simpa using ha0.2
          | succ k =>
            have := h2 k (by simpa using hk)
            rw [show i + (k + 1) = i + 1 + k by omega]
            simpa using this
        · rw [pairwise_ge_iff] at h3 ⊢
          intro k
          cases k with
          | zero => simp; omega
          | succ k => simpa using h3 k
        · intro hs k hk
          cases k with
          | zero =>
            simp at hk ⊢
            simp [hs, hk] at ha0
            omega
          | succ k =>
            simp at hk ⊢
            exact h4 hs k hk
      · rintro ⟨h1, h2, h3, h4⟩
        cases lam with
        | nil => simp at h1
        | cons a nu =>
          refine ⟨nu, ⟨by simpa using h1, ?_, h3.of_cons, ?_⟩, a, ?_, rfl⟩
          · intro k hk
            have := h2 (k + 1) (by simpa using hk)
            rw [show i + (k + 1) = i + 1 + k by omega] at this
            simpa using this
          · intro hs k hk
            have := h4 hs (k + 1) (by simpa using hk)
            simpa using this
          · rw [get_succ]
            have h20 := h2 0 (by simp)
            have h30 := (pairwise_ge_iff.1 h3) 0
            simp at h20 h30
            cases nu with
            | nil => simp; omega
            | cons b t =>
              cases strict with
              | false => simp at h30 ⊢; split <;> omega
              | true =>
                have := h4 rfl 0
                simp at this h30 ⊢
                split <;> omega

end Verif.Partition
