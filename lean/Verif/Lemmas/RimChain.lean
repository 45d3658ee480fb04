import Verif.Lemmas.RimWords
import Verif.Lemmas.RimTabs
import Mathlib.Data.Set.Card

/-! The boxes of a rim in a row, and the KOG and KLG tableaux on them as words. -/

attribute [-simp] List.getD_eq_getElem?_getD

namespace Verif.Tableaux

open Verif.Partition Verif.Part

instance decidableSouthWest (c b : Nat × Nat) : Decidable (SouthWest c b) := by unfold SouthWest; infer_instance

/-- The boxes of a rim, from the north-east to the south-west. -/
structure RimChain (cs : List (Nat × Nat)) : Prop where
  pw : cs.Pairwise (fun c d => SouthWest d c ∧ c ≠ d)
  adj : cs.IsChain (fun c d => (c.1 = d.1 → c.2 = d.2 + 1) ∧ (c.2 = d.2 → d.1 = c.1 + 1) ∧ c.1 ≠ c.2)

theorem RimChain.tail {c : Nat × Nat} {cs : List (Nat × Nat)} (h : RimChain (c :: cs)) : RimChain cs :=
  ⟨(List.pairwise_cons.1 h.pw).2, h.adj.tail⟩

theorem RimChain.nodup {cs : List (Nat × Nat)} (h : RimChain cs) : cs.Nodup := h.pw.imp (fun hh => hh.2)

/-- The entries south-west of `b`. -/
def below (cs : List (Nat × Nat)) (f : Nat × Nat → Int) (b : Nat × Nat) : List Int :=
  (cs.filter (fun d => decide (SouthWest d b ∧ d ≠ b))).map f

theorem below_head {c : Nat × Nat} {cs : List (Nat × Nat)} (h : RimChain (c :: cs)) (f : Nat × Nat → Int) :
    below (c :: cs) f c = cs.map f := by
  rw [below, List.filter_cons, if_neg (by simp), List.filter_eq_self.2]
  intro d hd
  have := (List.pairwise_cons.1 h.pw).1 d hd
  simpa using ⟨this.1, this.2.symm⟩

theorem below_tail {c : Nat × Nat} {cs : List (Nat × Nat)} (h : RimChain (c :: cs)) (f : Nat × Nat → Int) {b : Nat × Nat} (hb : b ∈ cs) :
    below (c :: cs) f b = below cs f b := by
  have := (List.pairwise_cons.1 h.pw).1 b hb
  rw [below, List.filter_cons, if_neg, below]
  simp only [decide_eq_true_eq, not_and, ne_eq, not_not]
  intro h1
  unfold SouthWest at h1 this
  exact Prod.ext (by omega) (by omega)

variable {S : Letters}

theorem okWord_iff {f : Nat × Nat → Int} (cs : List (Nat × Nat)) : RimChain cs → (OkWord S cs (cs.map f) ↔
    (∀ i j, (i, j) ∈ cs → (i, j + 1) ∈ cs → S.lev (f (i, j)) < S.lev (f (i, j + 1))) ∧
    (∀ i j, (i, j) ∈ cs → (i + 1, j) ∈ cs → S.lev (f (i, j)) < S.lev (f (i + 1, j))) ∧
    ∀ b ∈ cs, S.good b (f b) (below cs f b)) := by
  induction cs with
  | nil => intro _; simp [OkWord]
  | cons c cs ih =>
    intro h
    rw [List.map_cons, OkWord, ih h.tail]
    have hsw := (List.pairwise_cons.1 h.pw).1
    have hstep : okStep S c cs (f c) (cs.map f) = true ↔
        (∀ i j, (i, j) ∈ cs → (i, j + 1) = c → S.lev (f (i, j)) < S.lev (f (i, j + 1))) ∧
        (∀ i j, (i, j) = c → (i + 1, j) ∈ cs → S.lev (f (i, j)) < S.lev (f (i + 1, j))) := by
      cases cs with
      | nil => simp [okStep]
      | cons d ds =>
        have hd := hsw d (by simp)
        have hadj := (List.isChain_cons_cons.1 h.adj).1
        have hds := (List.pairwise_cons.1 h.tail.pw).1
        obtain ⟨ci, cj⟩ := c
        obtain ⟨di, dj⟩ := d
        have hne : ci = di → cj = dj → False := fun e1 e2 => hd.2 (by rw [e1, e2])
        simp only [SouthWest] at hd hadj hsw hds
        rw [List.map_cons, okStep]
        dsimp only
        constructor
        · intro hok
          constructor
          · intro i j hm he
            rw [Prod.mk.injEq] at he
            obtain ⟨rfl, rfl⟩ := he
            have h1 := hsw (i, j) hm
            have e1 : i = di ∧ j = dj := by
              rcases List.mem_cons.1 hm with e | hm'
              · simpa using e
              · have h2 := hds (i, j) hm'
                dsimp only at h1 h2
                have h3 : i = di := by omega
                have := hne h3
                omega
            obtain ⟨rfl, rfl⟩ := e1
            rw [if_pos rfl] at hok
            simpa using hok
          · intro i j he hm
            rw [Prod.mk.injEq] at he
            obtain ⟨rfl, rfl⟩ := he
            have h1 := hsw (i + 1, j) hm
            have e1 : i + 1 = di ∧ j = dj := by
              rcases List.mem_cons.1 hm with e | hm'
              · simpa using e
              · have h2 := hds (i + 1, j) hm'
                dsimp only at h1 h2
                have h3 : j = dj := by omega
                have := fun e => hne e h3
                omega
            obtain ⟨rfl, rfl⟩ := e1
            rw [if_neg (by omega), if_pos rfl] at hok
            simpa using hok
        · rintro ⟨h1, h2⟩
          split
          · rename_i e
            subst e
            have e2 := hadj.1 rfl
            subst e2
            simpa using h1 ci dj (by simp) rfl
          · split
            · rename_i e1 e
              subst e
              have e2 := hadj.2.1 rfl
              subst e2
              simpa using h2 ci cj rfl (by simp)
            · rfl
    rw [hstep]
    constructor
    · rintro ⟨⟨h1, h2, h3⟩, ⟨h4, h5⟩, h6⟩
      refine ⟨?_, ?_, ?_⟩
      · intro i j hb hb'
        rcases List.mem_cons.1 hb with e | hb
        · rcases List.mem_cons.1 hb' with e' | hb'
          · rw [← e'] at e; simp at e
          · have := hsw _ hb'
            rw [← e] at this
            simp only [SouthWest] at this
            omega
        · rcases List.mem_cons.1 hb' with e' | hb'
          · exact h4 i j hb e'
          · exact h1 i j hb hb'
      · intro i j hb hb'
        rcases List.mem_cons.1 hb with e | hb
        · rcases List.mem_cons.1 hb' with e' | hb'
          · rw [← e'] at e; simp at e
          · exact h5 i j e hb'
        · rcases List.mem_cons.1 hb' with e' | hb'
          · have := hsw _ hb
            rw [← e'] at this
            simp only [SouthWest] at this
            omega
          · exact h2 i j hb hb'
      · intro b hb
        rcases List.mem_cons.1 hb with e | hb
        · subst e
          rw [below_head h]
          exact h6
        · rw [below_tail h f hb]
          exact h3 b hb
    · rintro ⟨h1, h2, h3⟩
      refine ⟨⟨fun i j hb hb' => h1 i j (by simp [hb]) (by simp [hb']), fun i j hb hb' => h2 i j (by simp [hb]) (by simp [hb']), ?_⟩,
        ⟨fun i j hb hb' => h1 i j (by simp [hb]) (by simp [hb']), fun i j hb hb' => h2 i j (by simp [hb]) (by simp [hb'])⟩, ?_⟩
      · intro b hb
        rw [← below_tail h f hb]
        exact h3 b (by simp [hb])
      · rw [← below_head h f]
        exact h3 c (by simp)

theorem okWord_length (cs : List (Nat × Nat)) : ∀ vs, OkWord S cs vs → vs.length = cs.length := by
  induction cs with
  | nil => intro vs h; cases vs with
    | nil => rfl
    | cons => exact h.elim
  | cons c cs ih => intro vs h; cases vs with
    | nil => exact h.elim
    | cons v vs => rw [List.length_cons, List.length_cons, ih vs h.1]

theorem ncard_words (hS : S.Laws) {cs : List (Nat × Nat)} (h : RimChain cs) (p : Nat) :
    Set.ncard {f : Nat × Nat → Int | (∀ b, b ∉ cs → f b = 0) ∧ OkWord S cs (cs.map f) ∧ S.Content p (cs.map f)} = (rimWords S cs p).length := by
  classical
  have hinj : Set.InjOn (fun f : Nat × Nat → Int => cs.map f)
      {f | (∀ b, b ∉ cs → f b = 0) ∧ OkWord S cs (cs.map f) ∧ S.Content p (cs.map f)} := by
    rintro f ⟨hf, _⟩ g ⟨hg, _⟩ e
    funext b
    by_cases hb : b ∈ cs
    · exact List.map_inj_left.1 e b hb
    · rw [hf b hb, hg b hb]
  have himg : (fun f : Nat × Nat → Int => cs.map f) ''
      {f | (∀ b, b ∉ cs → f b = 0) ∧ OkWord S cs (cs.map f) ∧ S.Content p (cs.map f)} = ((rimWords S cs p).toFinset : Set (List Int)) := by
    ext vs
    rw [Set.mem_image, Finset.mem_coe, List.mem_toFinset, mem_rimWords hS]
    constructor
    · rintro ⟨f, ⟨_, h1, h2⟩, rfl⟩
      exact ⟨h1, h2⟩
    · rintro ⟨h1, h2⟩
      have hl := okWord_length cs vs h1
      have e : cs.map (fun b => if b ∈ cs then vs.getD (cs.idxOf b) 0 else 0) = vs := by
        refine List.ext_getElem (by rw [List.length_map, hl]) (fun i h3 h4 => ?_)
        rw [List.getElem_map, if_pos (List.getElem_mem _), h.nodup.idxOf_getElem, List.getD_eq_getElem _ _ h4]
      refine ⟨fun b => if b ∈ cs then vs.getD (cs.idxOf b) 0 else 0, ⟨fun b hb => if_neg hb, ?_, ?_⟩, e⟩
      · rw [e]; exact h1
      · rw [e]; exact h2
  rw [← Set.InjOn.ncard_image hinj, himg, Set.ncard_coe_finset, List.toFinset_card_of_nodup (nodup_rimWords hS cs p)]

/-- The letters of KOG tableaux. -/
def kogLetters : Letters where
  lev x := x.toNat
  bot := 1
  sh x := x + 1
  un x := x - 1
  valid x := 0 < x
  allow _ p := decide (p ≠ 0)
  good _ v vs := (∀ w ∈ vs, v ≤ w) ∨ ∀ w ∈ vs, w ≤ v

theorem kogLetters_laws : kogLetters.Laws where
  valid_top p := by show (0 : Int) < _; omega
  valid_bot := by show (0 : Int) < 1; omega
  abs_bot := by show |(1 : Int)| = 1; rfl
  valid_sh x h := by
    have h : (0 : Int) < x := h
    show (0 : Int) < x + 1
    omega
  abs_sh x h := by
    have h : (0 : Int) < x := h
    show |x + 1| = |x| + 1
    rw [abs_of_pos h, abs_of_pos (by omega)]
  valid_un x h h2 := by
    have h : (0 : Int) < x := h
    rw [abs_of_pos h] at h2
    exact ⟨show (0 : Int) < x - 1 by omega, show x - 1 + 1 = x by omega⟩
  un_sh x _ := show x + 1 - 1 = x by omega
  lev_sh x y hx hy := by
    have hx : (0 : Int) < x := hx
    have hy : (0 : Int) < y := hy
    show (x + 1).toNat < (y + 1).toNat ↔ x.toNat < y.toNat
    omega
  lev_top x p hx ha hne := by
    have hx : (0 : Int) < x := hx
    rw [abs_of_pos hx] at ha
    show x.toNat < ((p : Int) + 1).toNat
    omega
  lev_bot x hx hne := by
    have hx : (0 : Int) < x := hx
    have hne : x ≠ 1 := hne
    show (1 : Int).toNat < x.toNat
    omega
  good_sh c v vs _ := by
    show ((∀ w ∈ vs.map (fun x => x + 1), v + 1 ≤ w) ∨ ∀ w ∈ vs.map (fun x => x + 1), w ≤ v + 1) ↔ ((∀ w ∈ vs, v ≤ w) ∨ ∀ w ∈ vs, w ≤ v)
    simp
  good_iff c p v vs hc := by
    show ((∀ w ∈ vs, v ≤ w) ∨ ∀ w ∈ vs, w ≤ v) ↔ v = p + 1 ∨ (v = 1 ∧ decide (p ≠ 0) = true)
    have hpos : ∀ w ∈ v :: vs, (0 : Int) < w := hc.1
    have hr : ∀ w ∈ v :: vs, 1 ≤ w ∧ w ≤ p + 1 := fun w hw => by
      have := (hc.2 |w|).1 ⟨w, hw, rfl⟩
      rw [abs_of_pos (hpos w hw)] at this
      push_cast at this
      exact this
    rw [decide_eq_true_eq]
    have hv := hr v (by simp)
    constructor
    · rintro (h1 | h1)
      · obtain ⟨x, hx, e⟩ := (hc.2 1).2 (by omega)
        rw [abs_of_pos (hpos x hx)] at e
        have : v ≤ x := by
          rcases List.mem_cons.1 hx with rfl | hx
          · exact le_rfl
          · exact h1 x hx
        omega
      · obtain ⟨x, hx, e⟩ := (hc.2 (p + 1)).2 (by push_cast; omega)
        rw [abs_of_pos (hpos x hx)] at e
        have : x ≤ v := by
          rcases List.mem_cons.1 hx with rfl | hx
          · exact le_rfl
          · exact h1 x hx
        omega
    · rintro (e | ⟨e, _⟩)
      · exact Or.inr (fun w hw => by have := hr w (by simp [hw]); omega)
      · exact Or.inl (fun w hw => by have := hr w (by simp [hw]); omega)
  allow_ne c p h := by
    have h : decide (p ≠ 0) = true := h
    rw [decide_eq_true_eq] at h
    show (1 : Int) ≠ p + 1
    omega

/-- The letters of KLG tableaux. -/
def klgLetters : Letters where
  lev := klgLev
  bot := -1
  sh x := if x < 0 then x - 1 else x + 1
  un x := if x < 0 then x + 1 else x - 1
  valid x := x ≠ 0
  allow c _ := decide (c.1 ≠ c.2)
  good c v vs := (v < 0 → ∀ w ∈ vs, ¬ klgLev w < klgLev v) ∧ (0 < v → ∀ w ∈ vs, ¬ klgLev v < klgLev w) ∧ (c.1 = c.2 → 0 < v)

theorem abs_ite (x : Int) : |x| = if x < 0 then -x else x := by
  split
  · rw [abs_of_neg (by omega)]
  · rw [abs_of_nonneg (by omega)]

theorem klgLetters_laws : klgLetters.Laws where
  valid_top p := by show ((p : Int) + 1) ≠ 0; omega
  valid_bot := by show (-1 : Int) ≠ 0; omega
  abs_bot := by show |(-1 : Int)| = 1; rfl
  valid_sh x h := by
    have h : x ≠ 0 := h
    show (if x < 0 then x - 1 else x + 1) ≠ 0
    split <;> omega
  abs_sh x h := by
    have h : x ≠ 0 := h
    show |if x < 0 then x - 1 else x + 1| = |x| + 1
    rw [abs_ite, abs_ite]
    split <;> split <;> omega
  valid_un x h h2 := by
    have h : x ≠ 0 := h
    rw [abs_ite] at h2
    refine ⟨show (if x < 0 then x + 1 else x - 1) ≠ 0 by split <;> split at h2 <;> omega, ?_⟩
    show (if (if x < 0 then x + 1 else x - 1) < 0 then (if x < 0 then x + 1 else x - 1) - 1 else (if x < 0 then x + 1 else x - 1) + 1) = x
    split at h2
    · rename_i hx
      simp only [if_pos hx]
      rw [if_pos (by omega)]; omega
    · rename_i hx
      simp only [if_neg hx]
      rw [if_neg (by omega)]; omega
  un_sh x h := by
    have h : x ≠ 0 := h
    show (if (if x < 0 then x - 1 else x + 1) < 0 then (if x < 0 then x - 1 else x + 1) + 1 else (if x < 0 then x - 1 else x + 1) - 1) = x
    by_cases hx : x < 0
    · rw [if_pos hx, if_pos (by omega)]; omega
    · rw [if_neg hx, if_neg (by omega)]; omega
  lev_sh x y hx hy := by
    have hx : x ≠ 0 := hx
    have hy : y ≠ 0 := hy
    show klgLev (if x < 0 then x - 1 else x + 1) < klgLev (if y < 0 then y - 1 else y + 1) ↔ klgLev x < klgLev y
    rw [klgLev, klgLev, klgLev, klgLev]
    split <;> split <;> split <;> split <;> omega
  lev_top x p hx ha hne := by
    have hx : x ≠ 0 := hx
    show klgLev x < klgLev ((p : Int) + 1)
    rw [abs_ite] at ha
    rw [klgLev, klgLev, if_neg (show ¬ (p : Int) + 1 < 0 by omega)]
    split at ha
    · rw [if_pos (by assumption)]; omega
    · rw [if_neg (by assumption)]; omega
  lev_bot x hx hne := by
    have hx : x ≠ 0 := hx
    have hne : x ≠ -1 := hne
    show klgLev (-1) < klgLev x
    rw [klgLev, klgLev]
    split <;> split <;> omega
  good_sh c v vs hv := by
    have hv : ∀ x ∈ v :: vs, x ≠ 0 := hv
    have hlev : ∀ x y : Int, x ≠ 0 → y ≠ 0 →
        (klgLev (if x < 0 then x - 1 else x + 1) < klgLev (if y < 0 then y - 1 else y + 1) ↔ klgLev x < klgLev y) := by
      intro x y hx hy
      rw [klgLev, klgLev, klgLev, klgLev]
      split <;> split <;> split <;> split <;> omega
    have hv0 := hv v (by simp)
    show (((if v < 0 then v - 1 else v + 1) < 0 → ∀ w ∈ vs.map (fun x => if x < 0 then x - 1 else x + 1), ¬ klgLev w < klgLev (if v < 0 then v - 1 else v + 1)) ∧
      (0 < (if v < 0 then v - 1 else v + 1) → ∀ w ∈ vs.map (fun x => if x < 0 then x - 1 else x + 1), ¬ klgLev (if v < 0 then v - 1 else v + 1) < klgLev w) ∧
      (c.1 = c.2 → 0 < (if v < 0 then v - 1 else v + 1))) ↔ _
    have h1 : (if v < 0 then v - 1 else v + 1) < 0 ↔ v < 0 := by split <;> omega
    have h2 : 0 < (if v < 0 then v - 1 else v + 1) ↔ 0 < v := by split <;> omega
    rw [h1, h2]
    simp only [List.forall_mem_map]
    refine and_congr (imp_congr_right fun _ => forall_congr' fun w => forall_congr' fun hw => ?_)
      (and_congr (imp_congr_right fun _ => forall_congr' fun w => forall_congr' fun hw => ?_) Iff.rfl)
    · rw [hlev w v (hv w (by simp [hw])) hv0]
    · rw [hlev v w hv0 (hv w (by simp [hw]))]
  good_iff c p v vs hc := by
    show ((v < 0 → ∀ w ∈ vs, ¬ klgLev w < klgLev v) ∧ (0 < v → ∀ w ∈ vs, ¬ klgLev v < klgLev w) ∧ (c.1 = c.2 → 0 < v)) ↔
      v = p + 1 ∨ (v = -1 ∧ decide (c.1 ≠ c.2) = true)
    have hne : ∀ w ∈ v :: vs, w ≠ 0 := hc.1
    have hr : ∀ w ∈ v :: vs, 1 ≤ |w| ∧ |w| ≤ p + 1 := fun w hw => by
      have := (hc.2 |w|).1 ⟨w, hw, rfl⟩
      push_cast at this
      exact this
    have hlev : ∀ w ∈ v :: vs, 1 ≤ klgLev w ∧ klgLev w ≤ 2 * (p + 1) := fun w hw => by
      have := hr w hw
      rw [abs_ite] at this
      rw [klgLev]
      split at this
      · rw [if_pos (by assumption)]; omega
      · rw [if_neg (by assumption)]; omega
    rw [decide_eq_true_eq]
    have hv := hr v (by simp)
    have hv0 := hne v (by simp)
    constructor
    · rintro ⟨h1, h2, h3⟩
      rcases lt_trichotomy v 0 with h4 | h4 | h4
      · right
        obtain ⟨x, hx, e⟩ := (hc.2 1).2 (by omega)
        have h5 : ¬ klgLev x < klgLev v := by
          rcases List.mem_cons.1 hx with rfl | hx
          · exact lt_irrefl _
          · exact h1 h4 x hx
        rw [abs_ite] at e
        rw [klgLev, klgLev, if_pos h4] at h5
        refine ⟨?_, fun ec => by have := h3 ec; omega⟩
        split at e
        · rw [if_pos (by assumption)] at h5; omega
        · rw [if_neg (by assumption)] at h5; omega
      · exact absurd h4 hv0
      · left
        obtain ⟨x, hx, e⟩ := (hc.2 (p + 1)).2 (by push_cast; omega)
        have h5 : ¬ klgLev v < klgLev x := by
          rcases List.mem_cons.1 hx with rfl | hx
          · exact lt_irrefl _
          · exact h2 h4 x hx
        rw [abs_of_pos h4] at hv
        rw [abs_ite] at e
        rw [klgLev, klgLev, if_neg (by omega)] at h5
        split at e
        · rw [if_pos (by assumption)] at h5; omega
        · rw [if_neg (by assumption)] at h5; omega
    · rintro (e | ⟨e, he⟩)
      · refine ⟨fun h => by omega, fun _ w hw => ?_, fun _ => by omega⟩
        have h1 := (hlev w (by simp [hw])).2
        rw [e, klgLev, if_neg (by omega)]
        omega
      · refine ⟨fun _ w hw => ?_, fun h => by omega, fun h => absurd h he⟩
        have h1 := (hlev w (by simp [hw])).1
        have : klgLev v = 1 := by rw [e]; rfl
        omega
  allow_ne c p _ := by
    show (-1 : Int) ≠ p + 1
    omega

theorem content_iff {cs : List (Nat × Nat)} {f : Nat × Nat → Int} {p : Nat} :
    S.Content p (cs.map f) ↔ (∀ b ∈ cs, S.valid (f b)) ∧ (fun b => |f b|) '' {b | b ∈ cs} = Set.Icc 1 (p : Int) := by
  rw [Letters.Content]
  refine and_congr List.forall_mem_map ?_
  rw [Set.ext_iff]
  refine forall_congr' fun k => ?_
  simp only [Set.mem_image, Set.mem_ofPred_eq, Set.mem_Icc, List.mem_map]
  refine iff_congr ⟨?_, ?_⟩ Iff.rfl
  · rintro ⟨x, ⟨b, hb, rfl⟩, e⟩
    exact ⟨b, hb, e⟩
  · rintro ⟨b, hb, e⟩
    exact ⟨f b, ⟨b, hb, rfl⟩, e⟩

theorem forall_below {cs : List (Nat × Nat)} {f : Nat × Nat → Int} {b : Nat × Nat} {P : Int → Prop} (hP : P (f b)) :
    (∀ w ∈ below cs f b, P w) ↔ ∀ d ∈ cs, SouthWest d b → P (f d) := by
  simp only [below, List.mem_map, List.mem_filter, decide_eq_true_eq]
  constructor
  · intro h d hd hs
    by_cases e : d = b
    · rw [e]; exact hP
    · exact h (f d) ⟨d, ⟨hd, hs, e⟩, rfl⟩
  · rintro h w ⟨d, ⟨hd, hs, _⟩, rfl⟩
    exact h d hd hs

theorem isKOG_words {cs : List (Nat × Nat)} (h : RimChain cs) {p : Nat} {f : Nat × Nat → Int} :
    IsKOG {b | b ∈ cs} p f ↔ (∀ b, b ∉ cs → f b = 0) ∧ OkWord kogLetters cs (cs.map f) ∧ kogLetters.Content p (cs.map f) := by
  rw [okWord_iff cs h, content_iff]
  have hgood : ∀ b, kogLetters.good b (f b) (below cs f b) ↔
      (∀ d ∈ cs, SouthWest d b → f b ≤ f d) ∨ (∀ d ∈ cs, SouthWest d b → f d ≤ f b) := fun b => by
    show ((∀ w ∈ below cs f b, f b ≤ w) ∨ ∀ w ∈ below cs f b, w ≤ f b) ↔ _
    rw [forall_below (P := fun w => f b ≤ w) le_rfl, forall_below (P := fun w => w ≤ f b) le_rfl]
  constructor
  · intro hk
    have hpos : ∀ b ∈ cs, 0 < f b := fun b hb => by
      have : f b ∈ f '' {b | b ∈ cs} := ⟨b, hb, rfl⟩
      rw [hk.content, Set.mem_Icc] at this
      omega
    refine ⟨hk.off, ⟨fun i j h1 h2 => ?_, fun i j h1 h2 => ?_, fun b hb => (hgood b).2 (hk.southWest b hb)⟩, hpos, ?_⟩
    · show (f (i, j)).toNat < (f (i, j + 1)).toNat
      have := hk.rows i j h1 h2
      have := hpos _ h1
      omega
    · show (f (i, j)).toNat < (f (i + 1, j)).toNat
      have := hk.columns i j h1 h2
      have := hpos _ h1
      omega
    · rw [← hk.content]
      exact Set.image_congr (fun b hb => abs_of_pos (hpos b hb))
  · rintro ⟨h0, ⟨h1, h2, h3⟩, hpos, hc⟩
    have hpos : ∀ b ∈ cs, 0 < f b := hpos
    refine ⟨h0, fun i j hb hb' => ?_, fun i j hb hb' => ?_, fun b hb => (hgood b).1 (h3 b hb), ?_⟩
    · have : (f (i, j)).toNat < (f (i, j + 1)).toNat := h1 i j hb hb'
      omega
    · have : (f (i, j)).toNat < (f (i + 1, j)).toNat := h2 i j hb hb'
      omega
    · rw [← hc]
      exact Set.image_congr (fun b hb => (abs_of_pos (hpos b hb)).symm)

theorem isKLG_words {cs : List (Nat × Nat)} (h : RimChain cs) {p : Nat} {f : Nat × Nat → Int} :
    IsKLG {b | b ∈ cs} p f ↔ (∀ b, b ∉ cs → f b = 0) ∧ OkWord klgLetters cs (cs.map f) ∧ klgLetters.Content p (cs.map f) := by
  rw [okWord_iff cs h, content_iff]
  have hgood : ∀ b, klgLetters.good b (f b) (below cs f b) ↔
      (f b < 0 → ∀ d ∈ cs, SouthWest d b → ¬ klgLev (f d) < klgLev (f b)) ∧
      (0 < f b → ∀ d ∈ cs, SouthWest d b → ¬ klgLev (f b) < klgLev (f d)) ∧ (b.1 = b.2 → 0 < f b) := fun b => by
    show ((f b < 0 → ∀ w ∈ below cs f b, ¬ klgLev w < klgLev (f b)) ∧ (0 < f b → ∀ w ∈ below cs f b, ¬ klgLev (f b) < klgLev w) ∧
      (b.1 = b.2 → 0 < f b)) ↔ _
    rw [forall_below (P := fun w => ¬ klgLev w < klgLev (f b)) (lt_irrefl _), forall_below (P := fun w => ¬ klgLev (f b) < klgLev w) (lt_irrefl _)]
  constructor
  · intro hk
    have hne : ∀ b ∈ cs, f b ≠ 0 := fun b hb e => by
      have : |f b| ∈ (fun b => |f b|) '' {b | b ∈ cs} := ⟨b, hb, rfl⟩
      rw [hk.content, Set.mem_Icc, e, abs_zero] at this
      omega
    refine ⟨hk.off, ⟨fun i j h1 h2 => letterLt_iff.1 (hk.rows i j h1 h2), fun i j h1 h2 => letterLt_iff.1 (hk.columns i j h1 h2),
      fun b hb => (hgood b).2 ⟨fun hb1 d hd hs hlt => hk.primed b hb hb1 d hd hs (letterLt_iff.2 hlt),
        fun hb1 d hd hs hlt => hk.unprimed b hb hb1 d hd hs (letterLt_iff.2 hlt), fun e => ?_⟩⟩, hne, hk.content⟩
    obtain ⟨i, j⟩ := b
    dsimp only at e
    subst e
    exact hk.diagonal i hb
  · rintro ⟨h0, ⟨h1, h2, h3⟩, hne, hc⟩
    refine ⟨h0, fun i j hb hb' => letterLt_iff.2 (h1 i j hb hb'), fun i j hb hb' => letterLt_iff.2 (h2 i j hb hb'),
      fun i hi => ((hgood _).1 (h3 _ hi)).2.2 rfl,
      fun b hb hb1 d hd hs hlt => ((hgood _).1 (h3 b hb)).1 hb1 d hd hs (letterLt_iff.1 hlt),
      fun b hb hb1 d hd hs hlt => ((hgood _).1 (h3 b hb)).2.1 hb1 d hd hs (letterLt_iff.1 hlt), hc⟩

theorem ncard_isKOG {cs : List (Nat × Nat)} (h : RimChain cs) (p : Nat) :
    Set.ncard {f | IsKOG {b | b ∈ cs} p f} = (rimWords kogLetters cs p).length := by
  rw [← ncard_words kogLetters_laws h p]
  congr 1
  ext f
  exact isKOG_words h

theorem ncard_isKLG {cs : List (Nat × Nat)} (h : RimChain cs) (p : Nat) :
    Set.ncard {f | IsKLG {b | b ∈ cs} p f} = (rimWords klgLetters cs p).length := by
  rw [← ncard_words klgLetters_laws h p]
  congr 1
  ext f
  exact isKLG_words h

/-- The order of L497 of partitions.py. -/
def rimSort (rim : List (Nat × Nat)) : List (Nat × Nat) := rim.insertionSort (fun a b => b.1 < a.1 ∨ (a.1 = b.1 ∧ a.2 ≤ b.2))

theorem rimSort_eq {rim cs : List (Nat × Nat)} (h : RimChain cs) (hp : rim.Perm cs) : rimSort rim = cs.reverse := by
  refine List.Perm.eq_of_pairwise (le := fun a b : Nat × Nat => b.1 < a.1 ∨ (a.1 = b.1 ∧ a.2 ≤ b.2)) ?_ ?_ ?_ ?_
  · intro a b _ _ h1 h2
    exact Prod.ext (by omega) (by omega)
  · have : IsTrans (Nat × Nat) (fun a b : Nat × Nat => b.1 < a.1 ∨ (a.1 = b.1 ∧ a.2 ≤ b.2)) := ⟨fun a b c h1 h2 => by omega⟩
    have : Std.Total (fun a b : Nat × Nat => b.1 < a.1 ∨ (a.1 = b.1 ∧ a.2 ≤ b.2)) := ⟨fun a b => by omega⟩
    exact List.pairwise_insertionSort _ _
  · rw [List.pairwise_reverse]
    refine h.pw.imp ?_
    rintro c d ⟨h1, _⟩
    unfold SouthWest at h1
    omega
  · exact (List.perm_insertionSort _ _).trans (hp.trans cs.reverse_perm.symm)

theorem rimChain_of_rim {mu nu : List Nat} (h : IsStrict mu) (hr : IsRim mu nu) {rim : List (Nat × Nat)} (hn : rim.Nodup)
    (hm : ∀ b, b ∈ rim ↔ b ∈ ShiftedDiagram nu \ ShiftedDiagram mu) : RimChain (rimSort rim).reverse := by
  have hperm : (rimSort rim).Perm rim := List.perm_insertionSort _ _
  have hsort : (rimSort rim).Pairwise (fun a b : Nat × Nat => b.1 < a.1 ∨ (a.1 = b.1 ∧ a.2 ≤ b.2)) := by
    have : IsTrans (Nat × Nat) (fun a b : Nat × Nat => b.1 < a.1 ∨ (a.1 = b.1 ∧ a.2 ≤ b.2)) := ⟨fun a b c h1 h2 => by omega⟩
    have : Std.Total (fun a b : Nat × Nat => b.1 < a.1 ∨ (a.1 = b.1 ∧ a.2 ≤ b.2)) := ⟨fun a b => by omega⟩
    exact List.pairwise_insertionSort _ _
  have hD : ∀ b, b ∈ (rimSort rim).reverse ↔ b ∈ ShiftedDiagram nu \ ShiftedDiagram mu := fun b => by
    rw [List.mem_reverse, hperm.mem_iff, hm]
  -- facts about boxes in two rows
  have hrows : ∀ i j k l, (i, j) ∈ ShiftedDiagram nu \ ShiftedDiagram mu → (k, l) ∈ ShiftedDiagram nu \ ShiftedDiagram mu → i < k →
      l ≤ j ∧ i ≠ j ∧ (i + 1, j) ∈ ShiftedDiagram nu \ ShiftedDiagram mu ∨ l < j ∧ i ≠ j := by
    intro i j k l h1 h2 hik
    rw [mem_rim] at h1 h2
    obtain ⟨i, rfl⟩ : ∃ i', i = i' + 1 := ⟨i - 1, by omega⟩
    obtain ⟨k, rfl⟩ : ∃ k', k = k' + 2 := ⟨k - 2, by omega⟩
    simp only [Nat.add_sub_cancel, show k + 2 - 1 = k + 1 by omega] at h1 h2
    have h3 := rim_interlace h hr k
    have hk : k < mu.length := by
      by_contra hc
      rw [List.getD_eq_default (l := mu) (n := k) _ (by omega)] at h3
      omega
    have h4 := isStrict_rows h (i := i) (j := k) (by omega) hk
    have hk1 : k + 1 < nu.length := by
      by_contra hc
      rw [List.getD_eq_default (l := nu) (n := k + 1) _ (by omega)] at h2
      omega
    have h5 := isStrict_rows hr.strict (i := i + 1) (j := k + 1) (by omega) hk1
    have h6 := strict_next h i
    by_cases e : l < j
    · exact Or.inr ⟨e, by omega⟩
    · refine Or.inl ⟨by omega, by omega, mem_rim.2 ⟨by omega, ?_, ?_⟩⟩
      · rw [show i + 1 + 1 - 1 = i + 1 by omega]; omega
      · rw [show i + 1 + 1 - 1 = i + 1 by omega]; omega
  have hpw : (rimSort rim).reverse.Pairwise (fun c d => SouthWest d c ∧ c ≠ d) := by
    have hnd : (rimSort rim).Nodup := hperm.nodup_iff.2 hn
    rw [List.pairwise_reverse]
    refine (hsort.and hnd).imp_of_mem ?_
    rintro ⟨k, l⟩ ⟨i, j⟩ hk hi ⟨h1, h2⟩
    refine ⟨?_, h2.symm⟩
    dsimp only at h1
    have hk' := (hD (k, l)).1 (List.mem_reverse.2 hk)
    have hi' := (hD (i, j)).1 (List.mem_reverse.2 hi)
    rcases h1 with h1 | h1
    · rcases hrows i j k l hi' hk' h1 with h3 | h3
      · exact ⟨by dsimp only; omega, h3.1⟩
      · exact ⟨by dsimp only; omega, by dsimp only; omega⟩
    · exact ⟨by dsimp only; omega, h1.2⟩
  refine ⟨hpw, ?_⟩
  generalize hcs : (rimSort rim).reverse = cs at hpw hD
  clear hcs
  rw [List.isChain_iff_getElem]
  intro t ht
  have hsw : ∀ u (hu : u < cs.length), u < t + 1 → SouthWest cs[t + 1] cs[u] ∧ cs[u] ≠ cs[t + 1] := fun u hu hut =>
    (List.pairwise_iff_getElem.1 hpw) u (t + 1) hu ht hut
  have hno : ∀ b ∈ ShiftedDiagram nu \ ShiftedDiagram mu, SouthWest b cs[t] → SouthWest cs[t + 1] b → b = cs[t] ∨ b = cs[t + 1] := by
    intro b hb h1 h2
    rw [← hD] at hb
    obtain ⟨u, hu, rfl⟩ := List.getElem_of_mem hb
    have hpg := List.pairwise_iff_getElem.1 hpw
    have anti : ∀ a b : Nat × Nat, SouthWest a b → SouthWest b a → a = b := fun a b h1 h2 => by
      unfold SouthWest at h1 h2
      exact Prod.ext (by omega) (by omega)
    rcases Nat.lt_or_ge u t with h3 | h3
    · exact absurd (anti _ _ h1 (hpg u t hu (by omega) h3).1) (hpg u t hu (by omega) h3).2
    · rcases Nat.lt_or_ge (t + 1) u with h4 | h4
      · exact absurd (anti _ _ h2 (hpg (t + 1) u ht hu h4).1) (hpg (t + 1) u ht hu h4).2
      · rcases (by omega : u = t ∨ u = t + 1) with h5 | h5
        · subst h5; exact Or.inl rfl
        · subst h5; exact Or.inr rfl
  have h0 := hsw t (by omega) (by omega)
  have hmt := (hD cs[t]).1 (List.getElem_mem _)
  have hmt1 := (hD cs[t + 1]).1 (List.getElem_mem _)
  obtain ⟨⟨i, j⟩, hc⟩ : ∃ c, cs[t] = c := ⟨_, rfl⟩
  obtain ⟨⟨k, l⟩, hd⟩ : ∃ d, cs[t + 1] = d := ⟨_, rfl⟩
  rw [hc, hd] at h0 hno
  rw [hc] at hmt
  rw [hd] at hmt1
  rw [hc, hd]
  dsimp only
  simp only [SouthWest] at h0 hno
  have hne : ¬ (i = k ∧ j = l) := fun e => h0.2 (by rw [e.1, e.2])
  refine ⟨?_, ?_, ?_⟩
  · intro e
    subst e
    have hm2 : (i, l + 1) ∈ ShiftedDiagram nu \ ShiftedDiagram mu := by
      rw [mem_rim] at hmt hmt1 ⊢
      omega
    have := hno (i, l + 1) hm2 ⟨by dsimp only; omega, by dsimp only; omega⟩ ⟨by dsimp only; omega, by dsimp only; omega⟩
    rcases this with e | e
    · rw [Prod.mk.injEq] at e; omega
    · rw [Prod.mk.injEq] at e; omega
  · intro e
    subst e
    rcases hrows i j k j hmt hmt1 (by omega) with h3 | h3
    · have := hno (i + 1, j) h3.2.2 ⟨by dsimp only; omega, by dsimp only; omega⟩ ⟨by dsimp only; omega, by dsimp only; omega⟩
      rcases this with e | e
      · rw [Prod.mk.injEq] at e; omega
      · rw [Prod.mk.injEq] at e; omega
    · omega
  · intro e
    rcases Nat.lt_or_ge i k with h3 | h3
    · rcases hrows i j k l hmt hmt1 h3 with h4 | h4
      · exact h4.2.1 e
      · exact h4.2 e
    · have hl : k ≤ l := by rw [mem_rim] at hmt1; omega
      omega

end Verif.Tableaux
