import Verif.Spec.Rims
import Mathlib.Data.List.Nodup
import Mathlib.Algebra.Order.Group.Abs
import Mathlib.Tactic.Ring

/-! Counting the fillings of a rim, box by box from the north-east (for tableaux.py:1089-1115, 1172-1209). -/

namespace Verif.Tableaux

open Verif.Part

/-- The letters of KOG or KLG tableaux: the position `lev` of a letter, the least letter `bot`, the letter `sh x` one step up
and its inverse `un`, the boxes in which `bot` is allowed (beside the letter `p + 1`), and the condition `good` on an entry
relative to the entries south-west of it. -/
structure Letters where
  lev : Int → Nat
  bot : Int
  sh : Int → Int
  un : Int → Int
  valid : Int → Prop
  allow : Nat × Nat → Nat → Bool
  good : Nat × Nat → Int → List Int → Prop

/-- The numbers of the letters are `1, ..., p`. -/
def Letters.Content (S : Letters) (p : Nat) (vs : List Int) : Prop :=
  (∀ x ∈ vs, S.valid x) ∧ ∀ k : Int, (∃ x ∈ vs, |x| = k) ↔ 1 ≤ k ∧ k ≤ p

structure Letters.Laws (S : Letters) : Prop where
  valid_top : ∀ p : Nat, S.valid ((p : Int) + 1)
  valid_bot : S.valid S.bot
  abs_bot : |S.bot| = 1
  valid_sh : ∀ x, S.valid x → S.valid (S.sh x)
  abs_sh : ∀ x, S.valid x → |S.sh x| = |x| + 1
  valid_un : ∀ x, S.valid x → 2 ≤ |x| → S.valid (S.un x) ∧ S.sh (S.un x) = x
  un_sh : ∀ x, S.valid x → S.un (S.sh x) = x
  lev_sh : ∀ x y, S.valid x → S.valid y → (S.lev (S.sh x) < S.lev (S.sh y) ↔ S.lev x < S.lev y)
  lev_top : ∀ x (p : Nat), S.valid x → |x| ≤ p + 1 → x ≠ p + 1 → S.lev x < S.lev (p + 1)
  lev_bot : ∀ x, S.valid x → x ≠ S.bot → S.lev S.bot < S.lev x
  good_sh : ∀ c v vs, (∀ x ∈ v :: vs, S.valid x) → (S.good c (S.sh v) (vs.map S.sh) ↔ S.good c v vs)
  good_iff : ∀ c p v vs, S.Content (p + 1) (v :: vs) → (S.good c v vs ↔ v = p + 1 ∨ (v = S.bot ∧ S.allow c p = true))
  allow_ne : ∀ c (p : Nat), S.allow c p = true → S.bot ≠ p + 1

variable (S : Letters)

/-- The condition on the entry of `c` relative to the next box. -/
def okStep (c : Nat × Nat) (cs : List (Nat × Nat)) (v : Int) (ws : List Int) : Bool :=
  match cs, ws with
  | d :: _, w :: _ => if c.1 = d.1 then decide (S.lev w < S.lev v) else if c.2 = d.2 then decide (S.lev v < S.lev w) else true
  | _, _ => true

/-- All fillings of the boxes `cs`, listed from the north-east. -/
def rimWords : List (Nat × Nat) → Nat → List (List Int)
  | [], 0 => [[]]
  | [], _ + 1 => []
  | _ :: _, 0 => []
  | c :: cs, p + 1 =>
    (((rimWords cs (p + 1)).filter (okStep S c cs (p + 1))).map (fun ws => ((p : Int) + 1) :: ws) ++
      ((rimWords cs p).filter (okStep S c cs (p + 1))).map (fun ws => ((p : Int) + 1) :: ws)) ++
    if S.allow c p then
      ((rimWords cs (p + 1)).filter (okStep S c cs S.bot)).map (fun ws => S.bot :: ws) ++
      (((rimWords cs p).map (List.map S.sh)).filter (okStep S c cs S.bot)).map (fun ws => S.bot :: ws)
    else []

/-- The conditions on a filling of the boxes `cs`. -/
def OkWord : List (Nat × Nat) → List Int → Prop
  | [], [] => True
  | c :: cs, v :: vs => OkWord cs vs ∧ okStep S c cs v vs = true ∧ S.good c v vs
  | _, _ => False

variable {S}

theorem okStep_sh (h : S.Laws) {c : Nat × Nat} {cs : List (Nat × Nat)} {v : Int} {ws : List Int} (hv : ∀ x ∈ v :: ws, S.valid x) :
    okStep S c cs (S.sh v) (ws.map S.sh) = okStep S c cs v ws := by
  cases cs with
  | nil => rfl
  | cons d ds =>
    cases ws with
    | nil => rfl
    | cons w ws =>
      simp only [okStep, List.map_cons, h.lev_sh w v (hv w (by simp)) (hv v (by simp)), h.lev_sh v w (hv v (by simp)) (hv w (by simp))]

theorem okWord_sh (h : S.Laws) (cs : List (Nat × Nat)) : ∀ vs : List Int, (∀ x ∈ vs, S.valid x) → (OkWord S cs (vs.map S.sh) ↔ OkWord S cs vs) := by
  induction cs with
  | nil => intro vs _; cases vs <;> rfl
  | cons c cs ih =>
    intro vs hv
    cases vs with
    | nil => rfl
    | cons v vs =>
      rw [List.map_cons, OkWord, OkWord, ih vs (fun x hx => hv x (by simp [hx])), okStep_sh h hv, h.good_sh c v vs hv]

theorem Letters.Content.cons_of {p : Nat} {v : Int} {vs : List Int} (hc : S.Content p vs) (hv : S.valid v)
    (ha : 1 ≤ |v| ∧ |v| ≤ p) : S.Content p (v :: vs) := by
  refine ⟨fun x hx => ?_, fun k => ?_⟩
  · rcases List.mem_cons.1 hx with rfl | hx
    · exact hv
    · exact hc.1 x hx
  · rw [← hc.2 k]
    constructor
    · rintro ⟨x, hx, rfl⟩
      rcases List.mem_cons.1 hx with rfl | hx
      · exact (hc.2 _).2 ha
      · exact ⟨x, hx, rfl⟩
    · rintro ⟨x, hx, e⟩
      exact ⟨x, by simp [hx], e⟩

theorem Letters.Content.cons_top (h : S.Laws) {p : Nat} {vs : List Int} (hc : S.Content p vs) : S.Content (p + 1) (((p : Int) + 1) :: vs) := by
  refine ⟨fun x hx => ?_, fun k => ?_⟩
  · rcases List.mem_cons.1 hx with rfl | hx
    · exact h.valid_top p
    · exact hc.1 x hx
  · constructor
    · rintro ⟨x, hx, rfl⟩
      rcases List.mem_cons.1 hx with rfl | hx
      · rw [abs_of_nonneg (by omega)]
        push_cast
        omega
      · have := (hc.2 _).1 ⟨x, hx, rfl⟩
        push_cast
        omega
    · intro hk
      push_cast at hk
      by_cases e : k = p + 1
      · exact ⟨(p : Int) + 1, by simp, by rw [abs_of_nonneg (by omega)]; omega⟩
      · obtain ⟨x, hx, hx2⟩ := (hc.2 k).2 (by omega)
        exact ⟨x, by simp [hx], hx2⟩

theorem Letters.Content.cons_bot (h : S.Laws) {p : Nat} {vs : List Int} (hc : S.Content p vs) : S.Content (p + 1) (S.bot :: vs.map S.sh) := by
  refine ⟨fun x hx => ?_, fun k => ?_⟩
  · rcases List.mem_cons.1 hx with rfl | hx
    · exact h.valid_bot
    · obtain ⟨y, hy, rfl⟩ := List.mem_map.1 hx
      exact h.valid_sh y (hc.1 y hy)
  · constructor
    · rintro ⟨x, hx, rfl⟩
      rcases List.mem_cons.1 hx with rfl | hx
      · rw [h.abs_bot]
        omega
      · obtain ⟨y, hy, rfl⟩ := List.mem_map.1 hx
        rw [h.abs_sh y (hc.1 y hy)]
        have := (hc.2 _).1 ⟨y, hy, rfl⟩
        push_cast
        omega
    · intro hk
      push_cast at hk
      by_cases e : k = 1
      · exact ⟨S.bot, by simp, by rw [h.abs_bot, e]⟩
      · obtain ⟨x, hx, hx2⟩ := (hc.2 (k - 1)).2 (by omega)
        refine ⟨S.sh x, by simp only [List.mem_cons, List.mem_map]; exact Or.inr ⟨x, hx, rfl⟩, ?_⟩
        rw [h.abs_sh x (hc.1 x hx)]
        omega

theorem Letters.Content.of_cons {p : Nat} {v : Int} {vs : List Int} (hc : S.Content p (v :: vs)) (hv : ∃ x ∈ vs, |x| = |v|) : S.Content p vs := by
  refine ⟨fun x hx => hc.1 x (by simp [hx]), fun k => ?_⟩
  rw [← hc.2 k]
  constructor
  · rintro ⟨x, hx, e⟩
    exact ⟨x, by simp [hx], e⟩
  · rintro ⟨x, hx, rfl⟩
    rcases List.mem_cons.1 hx with rfl | hx
    · exact hv
    · exact ⟨x, hx, rfl⟩

theorem Letters.Content.of_top {p : Nat} {vs : List Int} (hc : S.Content (p + 1) (((p : Int) + 1) :: vs))
    (hv : ¬ ∃ x ∈ vs, |x| = (p : Int) + 1) : S.Content p vs := by
  refine ⟨fun x hx => hc.1 x (by simp [hx]), fun k => ?_⟩
  have h2 := hc.2 k
  push_cast at h2
  constructor
  · rintro ⟨x, hx, e⟩
    have h1 := h2.1 ⟨x, by simp [hx], e⟩
    have : k ≠ p + 1 := fun e' => hv ⟨x, hx, by rw [e, e']⟩
    omega
  · intro hk
    obtain ⟨x, hx, e⟩ := h2.2 (by omega)
    rcases List.mem_cons.1 hx with rfl | hx
    · rw [abs_of_nonneg (by omega)] at e
      omega
    · exact ⟨x, hx, e⟩

theorem Letters.Content.of_bot (h : S.Laws) {p : Nat} {vs : List Int} (hc : S.Content (p + 1) (S.bot :: vs))
    (hv : ¬ ∃ x ∈ vs, |x| = 1) : ∃ ws, vs = ws.map S.sh ∧ S.Content p ws := by
  have h2 : ∀ x ∈ vs, 2 ≤ |x| := fun x hx => by
    have := (hc.2 |x|).1 ⟨x, by simp [hx], rfl⟩
    have : |x| ≠ 1 := fun e => hv ⟨x, hx, e⟩
    omega
  have hun : ∀ x ∈ vs, S.valid (S.un x) ∧ S.sh (S.un x) = x := fun x hx => h.valid_un x (hc.1 x (by simp [hx])) (h2 x hx)
  refine ⟨vs.map S.un, ?_, ?_, fun k => ?_⟩
  · rw [List.map_map]
    conv_lhs => rw [← List.map_id vs]
    refine List.map_congr_left (fun x hx => ?_)
    rw [Function.comp_apply, (hun x hx).2, id]
  · intro y hy
    obtain ⟨x, hx, rfl⟩ := List.mem_map.1 hy
    exact (hun x hx).1
  · have habs : ∀ x ∈ vs, |x| = |S.un x| + 1 := fun x hx => by
      conv_lhs => rw [← (hun x hx).2]
      exact h.abs_sh _ (hun x hx).1
    have h3 := hc.2 (k + 1)
    push_cast at h3
    constructor
    · rintro ⟨y, hy, rfl⟩
      obtain ⟨x, hx, rfl⟩ := List.mem_map.1 hy
      have h4 := h3.1 ⟨x, by simp [hx], habs x hx⟩
      have h5 := h2 x hx
      have h6 := habs x hx
      omega
    · intro hk
      obtain ⟨x, hx, e⟩ := h3.2 (by omega)
      rcases List.mem_cons.1 hx with rfl | hx
      · rw [h.abs_bot] at e
        omega
      · exact ⟨S.un x, List.mem_map_of_mem hx, by have := habs x hx; omega⟩

theorem mem_rimWords (h : S.Laws) (cs : List (Nat × Nat)) : ∀ (p : Nat) (vs : List Int),
    vs ∈ rimWords S cs p ↔ OkWord S cs vs ∧ S.Content p vs := by
  induction cs with
  | nil =>
    intro p vs
    cases vs with
    | nil =>
      cases p with
      | zero =>
        simp only [rimWords, List.mem_singleton, OkWord, true_and, true_iff]
        refine ⟨by simp, fun k => ?_⟩
        simp only [List.not_mem_nil, false_and, exists_false, false_iff]
        push_cast
        omega
      | succ p =>
        simp only [rimWords, List.not_mem_nil, OkWord, true_and, false_iff]
        intro hc
        have := (hc.2 1).2 (by omega)
        simp at this
    | cons v vs =>
      have : ¬ OkWord S [] (v :: vs) := fun hh => hh
      cases p <;> simp [rimWords, this]
  | cons c cs ih =>
    intro p vs
    cases p with
    | zero =>
      simp only [rimWords, List.not_mem_nil, false_iff]
      rintro ⟨h1, h2⟩
      cases vs with
      | nil => exact h1
      | cons v vs =>
        have := (h2.2 |v|).1 ⟨v, by simp, rfl⟩
        push_cast at this
        omega
    | succ p =>
      have htop : 1 ≤ |(p : Int) + 1| ∧ |(p : Int) + 1| ≤ ((p + 1 : Nat) : Int) := by
        rw [abs_of_nonneg (by omega)]; push_cast; omega
      have hbot : 1 ≤ |S.bot| ∧ |S.bot| ≤ ((p + 1 : Nat) : Int) := by
        rw [h.abs_bot]; omega
      have hgood : ∀ v vs, S.Content (p + 1) (v :: vs) → (S.good c v vs ↔ v = (p : Int) + 1 ∨ (v = S.bot ∧ S.allow c p = true)) := h.good_iff c p
      rw [rimWords]
      constructor
      · intro hm
        rw [List.mem_append, List.mem_append] at hm
        rcases hm with (hm | hm) | hm
        · obtain ⟨ws, hw, rfl⟩ := List.mem_map.1 hm
          rw [List.mem_filter, ih] at hw
          have hc := hw.1.2.cons_of (h.valid_top p) htop
          exact ⟨⟨hw.1.1, hw.2, (hgood _ _ hc).2 (Or.inl rfl)⟩, hc⟩
        · obtain ⟨ws, hw, rfl⟩ := List.mem_map.1 hm
          rw [List.mem_filter, ih] at hw
          have hc := hw.1.2.cons_top h
          exact ⟨⟨hw.1.1, hw.2, (hgood _ _ hc).2 (Or.inl rfl)⟩, hc⟩
        · split at hm
          · rename_i ha
            rw [List.mem_append] at hm
            rcases hm with hm | hm
            · obtain ⟨ws, hw, rfl⟩ := List.mem_map.1 hm
              rw [List.mem_filter, ih] at hw
              have hc := hw.1.2.cons_of h.valid_bot hbot
              exact ⟨⟨hw.1.1, hw.2, (hgood _ _ hc).2 (Or.inr ⟨rfl, ha⟩)⟩, hc⟩
            · obtain ⟨ws, hw, rfl⟩ := List.mem_map.1 hm
              rw [List.mem_filter, List.mem_map] at hw
              obtain ⟨⟨us, hu, rfl⟩, hw⟩ := hw
              rw [ih] at hu
              have hc := hu.2.cons_bot h
              exact ⟨⟨(okWord_sh h cs us hu.2.1).2 hu.1, hw, (hgood _ _ hc).2 (Or.inr ⟨rfl, ha⟩)⟩, hc⟩
          · simp at hm
      · rintro ⟨h1, hc⟩
        cases vs with
        | nil => exact h1.elim
        | cons v vs =>
          obtain ⟨h1, h2, h3⟩ := h1
          rw [List.mem_append, List.mem_append]
          rcases (hgood v vs hc).1 h3 with rfl | ⟨rfl, ha⟩
          · left
            by_cases hv : ∃ x ∈ vs, |x| = (p : Int) + 1
            · left
              refine List.mem_map.2 ⟨vs, List.mem_filter.2 ⟨(ih _ _).2 ⟨h1, hc.of_cons ?_⟩, h2⟩, rfl⟩
              obtain ⟨x, hx, e⟩ := hv
              exact ⟨x, hx, by rw [e, abs_of_nonneg (by omega)]⟩
            · right
              exact List.mem_map.2 ⟨vs, List.mem_filter.2 ⟨(ih _ _).2 ⟨h1, hc.of_top hv⟩, h2⟩, rfl⟩
          · right
            rw [if_pos ha, List.mem_append]
            by_cases hv : ∃ x ∈ vs, |x| = 1
            · left
              refine List.mem_map.2 ⟨vs, List.mem_filter.2 ⟨(ih _ _).2 ⟨h1, hc.of_cons ?_⟩, h2⟩, rfl⟩
              obtain ⟨x, hx, e⟩ := hv
              exact ⟨x, hx, by rw [e, h.abs_bot]⟩
            · right
              obtain ⟨ws, rfl, hw⟩ := hc.of_bot h hv
              refine List.mem_map.2 ⟨_, List.mem_filter.2 ⟨List.mem_map.2 ⟨ws, (ih _ _).2 ⟨?_, hw⟩, rfl⟩, h2⟩, rfl⟩
              exact (okWord_sh h cs ws hw.1).1 h1

theorem nodup_rimWords (h : S.Laws) (cs : List (Nat × Nat)) : ∀ p, (rimWords S cs p).Nodup := by
  induction cs with
  | nil => intro p; cases p <;> simp [rimWords]
  | cons c cs ih =>
    intro p
    cases p with
    | zero => simp [rimWords]
    | succ p =>
      rw [rimWords, List.nodup_append]
      refine ⟨?_, ?_, ?_⟩
      · rw [List.nodup_append]
        refine ⟨((ih _).filter _).map (fun a b e => by simpa using e), ((ih _).filter _).map (fun a b e => by simpa using e), ?_⟩
        rintro a ha b hb rfl
        obtain ⟨ws, hw, rfl⟩ := List.mem_map.1 ha
        obtain ⟨ws', hw', e⟩ := List.mem_map.1 hb
        rw [List.cons.injEq] at e
        obtain ⟨_, rfl⟩ := e
        have h1 := ((mem_rimWords h _ _ _).1 (List.mem_filter.1 hw).1).2
        have h2 := ((mem_rimWords h _ _ _).1 (List.mem_filter.1 hw').1).2
        have h3 := (h1.2 (p + 1)).2 (by push_cast; omega)
        have h4 := (h2.2 (p + 1)).1 h3
        omega
      · split
        · rw [List.nodup_append]
          refine ⟨((ih _).filter _).map (fun a b e => by simpa using e), ?_, ?_⟩
          · refine List.Nodup.map (fun a b e => by simpa using e) (List.Nodup.filter _ ?_)
            rw [List.nodup_map_iff_inj_on (ih p)]
            intro a ha b hb e
            have h1 := ((mem_rimWords h _ _ _).1 ha).2.1
            have h2 := ((mem_rimWords h _ _ _).1 hb).2.1
            have e' := congrArg (List.map S.un) e
            rw [List.map_map, List.map_map] at e'
            have key : ∀ l : List Int, (∀ x ∈ l, S.valid x) → l.map (S.un ∘ S.sh) = l := fun l hl => by
              conv_rhs => rw [← List.map_id l]
              exact List.map_congr_left (fun x hx => h.un_sh x (hl x hx))
            rwa [key a h1, key b h2] at e'
          · rintro a ha b hb rfl
            obtain ⟨ws, hw, rfl⟩ := List.mem_map.1 ha
            obtain ⟨ws', hw', e⟩ := List.mem_map.1 hb
            rw [List.cons.injEq] at e
            obtain ⟨_, rfl⟩ := e
            obtain ⟨us, hu, rfl⟩ := List.mem_map.1 (List.mem_filter.1 hw').1
            have h1 := ((mem_rimWords h _ _ _).1 (List.mem_filter.1 hw).1).2
            have h2 := ((mem_rimWords h _ _ _).1 hu).2
            obtain ⟨x, hx, hx2⟩ := (h1.2 1).2 (by omega)
            obtain ⟨y, hy, rfl⟩ := List.mem_map.1 hx
            rw [h.abs_sh y (h2.1 y hy)] at hx2
            have := (h2.2 _).1 ⟨y, hy, rfl⟩
            omega
        · simp
      · rintro a ha b hb rfl
        have h1 : a.head? = some ((p : Int) + 1) := by
          rw [List.mem_append] at ha
          rcases ha with ha | ha <;> (obtain ⟨ws, _, rfl⟩ := List.mem_map.1 ha; rfl)
        split at hb
        · rename_i hal
          have h2 : a.head? = some S.bot := by
            rw [List.mem_append] at hb
            rcases hb with hb | hb <;> (obtain ⟨ws, _, rfl⟩ := List.mem_map.1 hb; rfl)
          rw [h1] at h2
          exact h.allow_ne c p hal (by simpa using h2.symm)
        · simp at hb

variable (S) in
/-- The number of fillings with `p + 1` in the first box. -/
def hiCount (c : Nat × Nat) (cs : List (Nat × Nat)) (p : Nat) : Nat :=
  ((rimWords S cs (p + 1)).filter (okStep S c cs (p + 1))).length + ((rimWords S cs p).filter (okStep S c cs (p + 1))).length

variable (S) in
/-- The number of fillings with `bot` in the first box, if it differs from `p + 1`. -/
def loCount (c : Nat × Nat) (cs : List (Nat × Nat)) (p : Nat) : Nat :=
  if S.allow c p then ((rimWords S cs (p + 1)).filter (okStep S c cs S.bot)).length +
    (((rimWords S cs p).map (List.map S.sh)).filter (okStep S c cs S.bot)).length else 0

theorem length_rimWords (c : Nat × Nat) (cs : List (Nat × Nat)) (p : Nat) :
    (rimWords S (c :: cs) (p + 1)).length = hiCount S c cs p + loCount S c cs p := by
  rw [rimWords, hiCount, loCount]
  split <;> simp [Nat.add_assoc]

theorem filter_head (c : Nat × Nat) (cs : List (Nat × Nat)) (p : Nat) (q : Int → Bool) :
    ((rimWords S (c :: cs) (p + 1)).filter (fun vs => match vs with | [] => true | v :: _ => q v)).length =
      (if q (p + 1) then hiCount S c cs p else 0) + if q S.bot then loCount S c cs p else 0 := by
  have key : ∀ (l : List (List Int)) (v : Int),
      ((l.map (fun ws => v :: ws)).filter (fun vs => match vs with | [] => true | v :: _ => q v)).length = if q v then l.length else 0 := by
    intro l v
    rw [List.filter_map, List.length_map]
    have : ((fun vs : List Int => match vs with | [] => true | v :: _ => q v) ∘ fun ws => v :: ws) = fun _ => q v := rfl
    rw [this]
    cases q v <;> simp
  rw [rimWords, List.filter_append, List.filter_append, List.length_append, List.length_append, key, key, hiCount, loCount]
  congr 1
  · split <;> simp
  · by_cases ha : S.allow c p = true
    · rw [if_pos ha, if_pos ha, List.filter_append, List.length_append, key, key]
      split <;> simp
    · rw [if_neg ha, if_neg ha]
      simp

theorem filter_all {α : Type*} {l : List α} {q : α → Bool} (h : ∀ a ∈ l, q a = true) : (l.filter q).length = l.length := by
  rw [List.filter_eq_self.2 h]

theorem filter_none {α : Type*} {l : List α} {q : α → Bool} (h : ∀ a ∈ l, q a = false) : (l.filter q).length = 0 := by
  rw [List.length_eq_zero_iff, List.filter_eq_nil_iff]
  intro a ha
  rw [h a ha]
  simp

theorem rimWords_cons_of_mem (h : S.Laws) {d : Nat × Nat} {ds : List (Nat × Nat)} {p : Nat} {vs : List Int} (hm : vs ∈ rimWords S (d :: ds) p) :
    ∃ v ws, vs = v :: ws ∧ S.valid v ∧ |v| ≤ p := by
  obtain ⟨h1, h2⟩ := (mem_rimWords h _ _ _).1 hm
  cases vs with
  | nil => exact h1.elim
  | cons v ws => exact ⟨v, ws, rfl, h2.1 v (by simp), ((h2.2 _).1 ⟨v, by simp, rfl⟩).2⟩

/-- A box apart from the next one. -/
theorem counts_apart {c : Nat × Nat} {cs : List (Nat × Nat)} (hc : ∀ d ∈ cs.head?, c.1 ≠ d.1 ∧ c.2 ≠ d.2) (p : Nat) :
    hiCount S c cs p = (rimWords S cs (p + 1)).length + (rimWords S cs p).length ∧
      loCount S c cs p = if S.allow c p then (rimWords S cs (p + 1)).length + (rimWords S cs p).length else 0 := by
  have hok : ∀ v ws, okStep S c cs v ws = true := by
    intro v ws
    cases cs with
    | nil => rfl
    | cons d ds =>
      have := hc d (by simp)
      cases ws with
      | nil => rfl
      | cons w ws => rw [okStep, if_neg this.1, if_neg this.2]
  rw [hiCount, loCount, filter_all (fun _ _ => hok _ _), filter_all (fun _ _ => hok _ _), filter_all (fun _ _ => hok _ _),
    filter_all (fun _ _ => hok _ _), List.length_map]
  exact ⟨rfl, rfl⟩

/-- A box in the row of the next one. -/
theorem counts_row (h : S.Laws) {c d : Nat × Nat} {ds : List (Nat × Nat)} (hc : c.1 = d.1) (p : Nat) :
    hiCount S c (d :: ds) p = loCount S d ds p + (rimWords S (d :: ds) p).length ∧ loCount S c (d :: ds) p = 0 := by
  have hok : ∀ v w ws, okStep S c (d :: ds) v (w :: ws) = decide (S.lev w < S.lev v) := fun v w ws => by
    rw [okStep, if_pos hc]
  have hbot : ∀ w, S.valid w → ¬ S.lev w < S.lev S.bot := fun w hw hlt => by
    by_cases e : w = S.bot
    · rw [e] at hlt; omega
    · have := h.lev_bot w hw e
      omega
  constructor
  · rw [hiCount]
    congr 1
    · have e : (rimWords S (d :: ds) (p + 1)).filter (okStep S c (d :: ds) (p + 1)) =
          (rimWords S (d :: ds) (p + 1)).filter (fun vs => match vs with | [] => true | v :: _ => decide (v ≠ p + 1)) := by
        refine List.filter_congr (fun vs hm => ?_)
        obtain ⟨v, ws, rfl, hv, ha⟩ := rimWords_cons_of_mem h hm
        rw [hok]
        push_cast at ha
        by_cases e : v = p + 1
        · simp [e]
        · simp [e, h.lev_top v p hv ha e]
      rw [e, filter_head]
      simp only [ne_eq, not_true_eq_false, decide_false, Bool.false_eq_true, if_false, Nat.zero_add, decide_eq_true_eq]
      split
      · rfl
      · rename_i e2
        rw [loCount, if_neg]
        intro ha
        exact h.allow_ne d p ha (not_not.1 e2)
    · refine filter_all (fun vs hm => ?_)
      obtain ⟨v, ws, rfl, hv, ha⟩ := rimWords_cons_of_mem h hm
      rw [hok, decide_eq_true_eq]
      refine h.lev_top v p hv (by omega) (fun e => ?_)
      rw [e, abs_of_nonneg (by omega)] at ha
      omega
  · rw [loCount]
    split
    · rw [filter_none, filter_none]
      · intro vs hm
        obtain ⟨us, hu, rfl⟩ := List.mem_map.1 hm
        obtain ⟨v, ws, rfl, hv, ha⟩ := rimWords_cons_of_mem h hu
        rw [List.map_cons, hok, decide_eq_false_iff_not]
        exact hbot _ (h.valid_sh v hv)
      · intro vs hm
        obtain ⟨v, ws, rfl, hv, ha⟩ := rimWords_cons_of_mem h hm
        rw [hok, decide_eq_false_iff_not]
        exact hbot _ hv
    · rfl

/-- A box in the column of the next one. -/
theorem counts_column (h : S.Laws) {c d : Nat × Nat} {ds : List (Nat × Nat)} (hc1 : c.1 ≠ d.1) (hc : c.2 = d.2) (p : Nat) :
    hiCount S c (d :: ds) p = 0 ∧
      loCount S c (d :: ds) p = if S.allow c p then hiCount S d ds p + (rimWords S (d :: ds) p).length else 0 := by
  have hok : ∀ v w ws, okStep S c (d :: ds) v (w :: ws) = decide (S.lev v < S.lev w) := fun v w ws => by
    rw [okStep, if_neg hc1, if_pos hc]
  have htop : ∀ w, S.valid w → |w| ≤ (p : Int) + 1 → ¬ S.lev ((p : Int) + 1) < S.lev w := fun w hw ha hlt => by
    by_cases e : w = p + 1
    · rw [e] at hlt; omega
    · have := h.lev_top w p hw ha e
      omega
  constructor
  · rw [hiCount, filter_none, filter_none]
    · intro vs hm
      obtain ⟨v, ws, rfl, hv, ha⟩ := rimWords_cons_of_mem h hm
      rw [hok, decide_eq_false_iff_not]
      exact htop v hv (by omega)
    · intro vs hm
      obtain ⟨v, ws, rfl, hv, ha⟩ := rimWords_cons_of_mem h hm
      rw [hok, decide_eq_false_iff_not]
      exact htop v hv (by push_cast at ha; omega)
  · rw [loCount]
    split
    · rename_i hal
      congr 1
      · have e : (rimWords S (d :: ds) (p + 1)).filter (okStep S c (d :: ds) S.bot) =
            (rimWords S (d :: ds) (p + 1)).filter (fun vs => match vs with | [] => true | v :: _ => decide (v ≠ S.bot)) := by
          refine List.filter_congr (fun vs hm => ?_)
          obtain ⟨v, ws, rfl, hv, ha⟩ := rimWords_cons_of_mem h hm
          rw [hok]
          by_cases e : v = S.bot
          · simp [e]
          · simp [e, h.lev_bot v hv e]
        rw [e, filter_head]
        simp [(h.allow_ne c p hal).symm]
      · rw [filter_all, List.length_map]
        intro vs hm
        obtain ⟨us, hu, rfl⟩ := List.mem_map.1 hm
        obtain ⟨v, ws, rfl, hv, ha⟩ := rimWords_cons_of_mem h hu
        rw [List.map_cons, hok, decide_eq_true_eq]
        refine h.lev_bot _ (h.valid_sh v hv) (fun e => ?_)
        have h1 := h.abs_sh v hv
        rw [e, h.abs_bot] at h1
        have h2 := ((mem_rimWords h _ _ _).1 hu).2
        have := (h2.2 |v|).1 ⟨v, by simp, rfl⟩
        omega
    · rfl

end Verif.Tableaux
