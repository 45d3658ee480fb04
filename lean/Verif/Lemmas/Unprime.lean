import Verif.Model.Unprime
import Verif.Lemmas.TabSemi
import Mathlib.Data.Multiset.Basic
import Mathlib.Data.Multiset.AddSub
import Mathlib.Tactic.Abel

/-!
# Lemmas on `setvalued_column_insert` and `unprime_diagonal`
-/

attribute [-simp] List.getD_eq_getElem?_getD

namespace Verif.Unprime

open Verif

theorem dec_enc (v : Int) : dec (enc v) = v := by
  unfold dec enc
  rw [Int.fdiv_eq_ediv_of_nonneg _ (by norm_num), Int.fdiv_eq_ediv_of_nonneg _ (by norm_num)]
  split_ifs <;> omega

theorem encode_perm (s : List Int) : (encode s).Perm (s.map enc) := Tab.sortInts_perm' _

theorem decode_perm (s : List Int) : (decode s).Perm (s.map dec) := Tab.sortInts_perm' _

theorem map_dec_encode (s : List Int) : ((encode s).map dec).Perm s := by
  have h := (encode_perm s).map dec
  rw [List.map_map] at h
  have : dec ∘ enc = id := funext dec_enc
  rwa [this, List.map_id] at h

theorem encode_ne_nil {s : List Int} (h : s ≠ []) : encode s ≠ [] := by
  intro he
  have := (encode_perm s).length_eq
  rw [he] at this
  simp only [List.length_nil, List.length_map] at this
  exact h (List.length_eq_zero_iff.1 this.symm)

theorem decode_ne_nil {s : List Int} (h : s ≠ []) : decode s ≠ [] := by
  intro he
  have := (decode_perm s).length_eq
  rw [he] at this
  simp only [List.length_nil, List.length_map] at this
  exact h (List.length_eq_zero_iff.1 this.symm)

theorem stops_mono {v w x : Int} (hvw : v ≤ w) (h : stops w x = true) : stops v x = true := by
  unfold stops at *
  simp only [Bool.or_eq_true, Bool.and_eq_true, decide_eq_true_eq] at *
  omega

theorem bumpFrom_ge (v : Int) (boxes : List (List Int)) (i : Nat) : i ≤ (bumpFrom v boxes i).1 ∧ (bumpFrom v boxes i).1 ≤ i + boxes.length := by
  induction boxes generalizing i with
  | nil => simp [bumpFrom]
  | cons b t ih =>
    rw [bumpFrom]
    split
    · simp only [List.length_cons]; omega
    · have := ih (i + 1)
      simp only [List.length_cons]; omega

theorem bumpFrom_mono {v w : Int} (hvw : v ≤ w) (boxes : List (List Int)) (i : Nat) :
    (bumpFrom v boxes i).1 ≤ (bumpFrom w boxes i).1 := by
  induction boxes generalizing i with
  | nil => simp [bumpFrom]
  | cons b t ih =>
    rw [bumpFrom, bumpFrom]
    split
    · split
      · exact le_refl _
      · have := (bumpFrom_ge w t (i + 1)).1
        dsimp only; omega
    · rename_i hn
      split
      · rename_i j hj
        exfalso
        rw [List.findIdx?_eq_none_iff] at hn
        obtain ⟨hlt, hs, _⟩ := List.findIdx?_eq_some_iff_getElem.1 hj
        have := hn _ (List.getElem_mem hlt)
        rw [stops_mono hvw hs] at this
        exact absurd this (by simp)
      · exact ih (i + 1)

theorem bumpFrom_spec (v : Int) (boxes : List (List Int)) (i : Nat) :
    (bumpFrom v boxes i).1 = i + boxes.length ∨
      ∃ row, boxes[(bumpFrom v boxes i).1 - i]? = some row ∧ (bumpFrom v boxes i).2 < row.length := by
  induction boxes generalizing i with
  | nil => simp [bumpFrom]
  | cons b t ih =>
    rw [bumpFrom]
    split
    · rename_i j hj
      right
      obtain ⟨hlt, _⟩ := List.findIdx?_eq_some_iff_getElem.1 hj
      exact ⟨b, by simp, hlt⟩
    · rcases ih (i + 1) with h | ⟨row, hr, hl⟩
      · left
        rw [h, List.length_cons]; omega
      · right
        refine ⟨row, ?_, hl⟩
        have := (bumpFrom_ge v t (i + 1)).1
        rw [show (bumpFrom v t (i + 1)).1 - i = ((bumpFrom v t (i + 1)).1 - (i + 1)) + 1 by omega]
        exact hr

/-- What holds of the list `bumps`, newest first. -/
def GoodBumps (boxes : List (List Int)) (bumps : List (Nat × Nat × List Int)) : Prop :=
  bumps.Pairwise (fun p q => q.1 < p.1) ∧
    ∀ p ∈ bumps, p.2.2 ≠ [] ∧ p.2.2.Pairwise (· ≤ ·) ∧
      (p.1 = boxes.length ∨ ∃ row, boxes[p.1]? = some row ∧ p.2.1 < row.length)

/-- All the values of `bumps`. -/
def bumpVals (bumps : List (Nat × Nat × List Int)) : Multiset Int := (bumps.map (fun p => Multiset.ofList p.2.2)).sum

theorem bumps_fold (boxes : List (List Int)) (values : List Int) (hs : values.Pairwise (· ≤ ·)) :
    ∀ bumps : List (Nat × Nat × List Int), GoodBumps boxes bumps →
      (∀ p ∈ bumps, ∀ x ∈ p.2.2, ∀ v ∈ values, x ≤ v) →
      (∀ p ∈ bumps, ∃ x ∈ p.2.2, (bumpFrom x boxes 0).1 = p.1) →
      GoodBumps boxes (values.foldl (bumpStep boxes) bumps) ∧
        bumpVals (values.foldl (bumpStep boxes) bumps) = bumpVals bumps + (values : Multiset Int) := by
  induction values with
  | nil => intro bumps h _ _; exact ⟨h, by simp⟩
  | cons v t ih =>
    intro bumps h hle hrow
    rw [List.pairwise_cons] at hs
    rw [List.foldl_cons]
    have hspec : (bumpFrom v boxes 0).1 = boxes.length ∨
        ∃ row, boxes[(bumpFrom v boxes 0).1]? = some row ∧ (bumpFrom v boxes 0).2 < row.length := by
      simpa using bumpFrom_spec v boxes 0
    have key : GoodBumps boxes (bumpStep boxes bumps v) ∧ bumpVals (bumpStep boxes bumps v) = bumpVals bumps + {v} ∧
        (∀ p ∈ bumpStep boxes bumps v, ∀ x ∈ p.2.2, ∀ u ∈ t, x ≤ u) ∧
        (∀ p ∈ bumpStep boxes bumps v, ∃ x ∈ p.2.2, (bumpFrom x boxes 0).1 = p.1) := by
      obtain ⟨i, j, hij⟩ : ∃ i j, bumpFrom v boxes 0 = (i, j) := ⟨_, _, rfl⟩
      rw [hij] at hspec
      unfold bumpStep
      rw [hij]
      dsimp only
      cases bumps with
      | nil =>
        dsimp only
        refine ⟨⟨by simp, ?_⟩, by simp [bumpVals], ?_, ?_⟩
        · intro p hp
          rw [List.mem_singleton] at hp
          subst hp
          exact ⟨by simp, by simp, hspec⟩
        · intro p hp x hx u hu
          rw [List.mem_singleton] at hp
          subst hp
          rw [List.mem_singleton] at hx
          subst hx
          exact hs.1 u hu
        · intro p hp
          rw [List.mem_singleton] at hp
          subst hp
          exact ⟨v, by simp, by rw [hij]⟩
      | cons p0 rest =>
        obtain ⟨i', j', val⟩ := p0
        dsimp only
        obtain ⟨hpw, hall⟩ := h
        rw [List.pairwise_cons] at hpw
        obtain ⟨hne, hsv, hsp⟩ := hall _ (List.mem_cons_self ..)
        split_ifs with hi
        · subst hi
          refine ⟨⟨?_, ?_⟩, ?_, ?_, ?_⟩
          · rw [List.pairwise_cons]; exact hpw
          · intro p hp
            rcases List.mem_cons.1 hp with rfl | hp
            · refine ⟨by simp, ?_, hsp⟩
              dsimp only
              rw [List.pairwise_append]
              refine ⟨hsv, by simp, ?_⟩
              intro a ha b hb
              rw [List.mem_singleton] at hb
              subst hb
              exact hle _ (List.mem_cons_self ..) a ha b (List.mem_cons_self ..)
            · exact hall p (List.mem_cons_of_mem _ hp)
          · unfold bumpVals
            simp only [List.map_cons, List.sum_cons, ← Multiset.coe_add, Multiset.coe_singleton]
            abel
          · intro p hp x hx u hu
            rcases List.mem_cons.1 hp with rfl | hp
            · rcases List.mem_append.1 hx with hx | hx
              · exact hle _ (List.mem_cons_self ..) x hx u (List.mem_cons_of_mem _ hu)
              · rw [List.mem_singleton] at hx
                subst hx
                exact hs.1 u hu
            · exact hle p (List.mem_cons_of_mem _ hp) x hx u (List.mem_cons_of_mem _ hu)
          · intro p hp
            rcases List.mem_cons.1 hp with rfl | hp
            · exact ⟨v, by simp, by rw [hij]⟩
            · exact hrow p (List.mem_cons_of_mem _ hp)
        · have hlt : i' < i := by
            obtain ⟨x, hx, hxr⟩ := hrow _ (List.mem_cons_self ..)
            have := bumpFrom_mono (hle _ (List.mem_cons_self ..) x hx v (List.mem_cons_self ..)) boxes 0
            rw [hxr, hij] at this
            dsimp only at this
            omega
          refine ⟨⟨?_, ?_⟩, ?_, ?_, ?_⟩
          · rw [List.pairwise_cons]
            refine ⟨?_, List.pairwise_cons.2 hpw⟩
            intro q hq
            rcases List.mem_cons.1 hq with rfl | hq
            · exact hlt
            · exact lt_trans (hpw.1 q hq) hlt
          · intro p hp
            rcases List.mem_cons.1 hp with rfl | hp
            · exact ⟨by simp, by simp, hspec⟩
            · exact hall p hp
          · unfold bumpVals
            simp only [List.map_cons, List.sum_cons, Multiset.coe_singleton]
            abel
          · intro p hp x hx u hu
            rcases List.mem_cons.1 hp with rfl | hp
            · rw [List.mem_singleton] at hx
              subst hx
              exact hs.1 u hu
            · exact hle p hp x hx u (List.mem_cons_of_mem _ hu)
          · intro p hp
            rcases List.mem_cons.1 hp with rfl | hp
            · exact ⟨v, by simp, by rw [hij]⟩
            · exact hrow p hp
    obtain ⟨k1, k2, k3, k4⟩ := key
    obtain ⟨r1, r2⟩ := ih hs.2 _ k1 k3 k4
    refine ⟨r1, ?_⟩
    rw [r2, k2, ← Multiset.cons_coe, ← Multiset.singleton_add, add_assoc]

/-- A filter of a sorted list that keeps small values is a prefix. -/
theorem filter_prefix (p : Int → Bool) (hp : ∀ u w, u ≤ w → p w = true → p u = true) (l : List Int) (hl : l.Pairwise (· ≤ ·)) :
    l.filter p ++ l.drop (l.filter p).length = l := by
  induction l with
  | nil => simp
  | cons a t ih =>
    rw [List.pairwise_cons] at hl
    rw [List.filter_cons]
    split_ifs with ha
    · simp only [List.length_cons, List.drop_succ_cons, List.cons_append]
      rw [ih hl.2]
    · have : t.filter p = [] := by
        rw [List.filter_eq_nil_iff]
        intro b hb h
        exact ha (hp a b (hl.1 b hb) h)
      rw [this]; simp

theorem keeps_mono (b bd u w : Int) (huw : u ≤ w) (h : keeps b bd w = true) : keeps b bd u = true := by
  unfold keeps at *
  simp only [Bool.and_eq_true, Bool.not_eq_true', Bool.or_eq_false_iff, Bool.and_eq_false_iff, decide_eq_true_eq, decide_eq_false_iff_not] at *
  omega

/-- The entries of all the boxes of a column. -/
def cont (boxes : List (List Int)) : Multiset Int := (boxes.map (fun b => Multiset.ofList b)).sum

theorem cont_append (a b : List (List Int)) : cont (a ++ b) = cont a + cont b := by
  unfold cont; rw [List.map_append, List.sum_append]

theorem cont_set (boxes : List (List Int)) (i : Nat) (row s : List Int) (h : boxes[i]? = some row) :
    cont (boxes.set i s) + (row : Multiset Int) = cont boxes + (s : Multiset Int) := by
  induction boxes generalizing i with
  | nil => simp at h
  | cons b t ih =>
    cases i with
    | zero =>
      simp only [List.getElem?_cons_zero, Option.some.injEq] at h
      subst h
      simp only [List.set_cons_zero, cont, List.map_cons, List.sum_cons]
      abel
    | succ i =>
      rw [List.getElem?_cons_succ] at h
      have := ih i h
      simp only [List.set_cons_succ, cont, List.map_cons, List.sum_cons] at this ⊢
      rw [add_assoc, this, add_assoc]

theorem applyBump_spec (bound : List Int) (boxes : List (List Int)) (ans : List Int) (i j : Nat) (val : List Int)
    (hval : val ≠ []) (hsv : val.Pairwise (· ≤ ·)) (hbox : ∀ b ∈ boxes, b ≠ [])
    (hsp : i = boxes.length ∨ (i + 1 < bound.length ∧ ∃ row, boxes[i]? = some row ∧ j < row.length)) :
    ∃ boxes' ans', applyBump bound (boxes, ans) (i, j, val) = some (boxes', ans') ∧
      cont boxes' + (ans' : Multiset Int) = cont boxes + (ans : Multiset Int) + (val : Multiset Int) ∧
      (∀ b ∈ boxes', b ≠ []) ∧ (∀ k < i, boxes'[k]? = boxes[k]?) ∧
      (boxes'.length = boxes.length ∨ (boxes'.length = boxes.length + 1 ∧ boxes.length ≤ i + 1)) := by
  unfold applyBump
  dsimp only
  split_ifs with hi
  · refine ⟨_, _, rfl, ?_, ?_, ?_, ?_⟩
    · rw [cont_append]
      simp only [cont, List.map_cons, List.map_nil, List.sum_cons, List.sum_nil, add_zero]
      abel
    · intro b hb
      rcases List.mem_append.1 hb with hb | hb
      · exact hbox b hb
      · rw [List.mem_singleton] at hb
        rw [hb]; exact hval
    · intro k hk
      rw [List.getElem?_append_left (by omega)]
    · right; simp; omega
  · obtain ⟨hbl, row, hrow, hj⟩ := hsp.resolve_left hi
    obtain ⟨v, rest, rfl⟩ := List.exists_cons_of_ne_nil hval
    rw [List.pairwise_cons] at hsv
    obtain ⟨bd, hbd⟩ : ∃ bd, bound[i + 1]? = some bd := ⟨_, List.getElem?_eq_getElem hbl⟩
    obtain ⟨b, hb⟩ : ∃ b, row[j]? = some b := ⟨_, List.getElem?_eq_getElem hj⟩
    rw [hrow, hbd]
    dsimp only
    rw [hb]
    dsimp only
    have hil : i < boxes.length := by
      by_contra hc
      rw [List.getElem?_eq_none (by omega)] at hrow
      simp at hrow
    obtain ⟨F, hF⟩ : ∃ F, rest.filter (keeps b bd) = F := ⟨_, rfl⟩
    have hpre := filter_prefix (keeps b bd) (keeps_mono b bd) rest hsv.2
    rw [hF] at hpre
    rw [hF]
    simp only [List.length_cons, List.drop_succ_cons]
    obtain ⟨L, hL⟩ : ∃ L, rest.drop F.length = L := ⟨_, rfl⟩
    rw [hL] at hpre ⊢
    have hset := cont_set boxes i row (row.take j ++ v :: F) hrow
    have hrowsplit : (row : Multiset Int) = (row.take j : Multiset Int) + (row.drop j : Multiset Int) := by
      rw [Multiset.coe_add, List.take_append_drop]
    have hvs : ((v :: rest : List Int) : Multiset Int) = ((v :: F : List Int) : Multiset Int) + (L : Multiset Int) := by
      rw [Multiset.coe_add, List.cons_append, hpre]
    have hset' : cont (boxes.set i (row.take j ++ v :: F)) + (row.drop j : Multiset Int) = cont boxes + ((v :: F : List Int) : Multiset Int) := by
      rw [hrowsplit, ← Multiset.coe_add (row.take j)] at hset
      have h2 : cont (boxes.set i (row.take j ++ v :: F)) + (row.drop j : Multiset Int) + (row.take j : Multiset Int) =
          cont boxes + ((v :: F : List Int) : Multiset Int) + (row.take j : Multiset Int) := by
        rw [add_assoc, add_comm (row.drop j : Multiset Int), hset]; abel
      exact add_right_cancel h2
    have hne1 : ∀ c ∈ boxes.set i (row.take j ++ v :: F), c ≠ [] := by
      intro c hc
      rcases List.mem_or_eq_of_mem_set hc with hc | hc
      · exact hbox c hc
      · rw [hc]; simp
    obtain ⟨B, hB⟩ : ∃ B, boxes.set i (row.take j ++ v :: F) = B := ⟨_, rfl⟩
    have hBl : B.length = boxes.length := by rw [← hB, List.length_set]
    have hBk : ∀ k < i, B[k]? = boxes[k]? := by
      intro k hk
      rw [← hB, List.getElem?_set_ne (by omega)]
    rw [hB] at hset' hne1 ⊢
    split_ifs with hL0 hlen
    · refine ⟨_, _, rfl, ?_, hne1, hBk, Or.inl hBl⟩
      rw [hvs, hL0, ← Multiset.coe_add, ← add_assoc, hset']
      simp only [Multiset.coe_nil, add_zero]
      abel
    · have hs2 := cont_set (B ++ [[]]) (i + 1) [] (L ++ (B ++ [[]]).getD (i + 1) []) (by
        rw [hlen, List.getElem?_append_right (le_refl _)]; simp)
      have hg : (B ++ [[]]).getD (i + 1) [] = [] := by
        rw [List.getD_eq_getElem?_getD, hlen, List.getElem?_append_right (le_refl _)]; simp
      rw [hg, List.append_nil] at hs2 ⊢
      refine ⟨_, _, rfl, ?_, ?_, ?_, ?_⟩
      · rw [Multiset.coe_nil, add_zero, cont_append] at hs2
        simp only [cont, List.map_cons, List.map_nil, List.sum_cons, List.sum_nil, add_zero, Multiset.coe_nil] at hs2
        change _ = cont B + _ at hs2
        change cont _ = _ at hs2
        rw [hs2, hvs, ← Multiset.coe_add, add_right_comm, ← add_assoc, hset']
        abel
      · intro c hc
        rw [hlen, List.set_append_right _ _ (le_refl _)] at hc
        simp only [Nat.sub_self, List.set_cons_zero] at hc
        rcases List.mem_append.1 hc with hc | hc
        · exact hne1 c hc
        · rw [List.mem_singleton] at hc
          rw [hc]; exact hL0
      · intro k hk
        rw [List.getElem?_set_ne (by omega), List.getElem?_append_left (by omega)]
        exact hBk k hk
      · right
        rw [List.length_set, List.length_append, List.length_singleton]; omega
    · obtain ⟨r2, hr2⟩ : ∃ r2, B[i + 1]? = some r2 := ⟨_, List.getElem?_eq_getElem (by omega)⟩
      have hs2 := cont_set B (i + 1) r2 (L ++ B.getD (i + 1) []) hr2
      have hg : B.getD (i + 1) [] = r2 := by
        rw [List.getD_eq_getElem?_getD, hr2]; rfl
      rw [hg] at hs2 ⊢
      refine ⟨_, _, rfl, ?_, ?_, ?_, ?_⟩
      · rw [← Multiset.coe_add, ← add_assoc] at hs2
        have := add_right_cancel hs2
        rw [this, hvs, ← Multiset.coe_add, add_right_comm, ← add_assoc, hset']
        abel
      · intro c hc
        rcases List.mem_or_eq_of_mem_set hc with hc | hc
        · exact hne1 c hc
        · rw [hc]; simp [hL0]
      · intro k hk
        rw [List.getElem?_set_ne (by omega)]
        exact hBk k hk
      · left; rw [List.length_set]; exact hBl

theorem bumps_run (bound : List Int) (orig : List (List Int)) (hb : bound.length = orig.length + 1) :
    ∀ (bumps : List (Nat × Nat × List Int)) (boxes : List (List Int)) (ans : List Int),
      GoodBumps orig bumps → (∀ b ∈ boxes, b ≠ []) →
      (∀ p ∈ bumps, ∀ k ≤ p.1, boxes[k]? = orig[k]?) →
      (boxes.length = orig.length ∨ boxes.length = orig.length + 1 ∧ ∀ p ∈ bumps, p.1 + 1 ≤ orig.length ) →
      ∃ boxes' ans', bumps.foldlM (applyBump bound) (boxes, ans) = some (boxes', ans') ∧
        cont boxes' + (ans' : Multiset Int) = cont boxes + (ans : Multiset Int) + bumpVals bumps ∧
        (∀ b ∈ boxes', b ≠ []) ∧ (boxes'.length = orig.length ∨ boxes'.length = orig.length + 1) := by
  intro bumps
  induction bumps with
  | nil =>
    intro boxes ans _ hne _ hl
    exact ⟨boxes, ans, rfl, by simp [bumpVals], hne, by tauto⟩
  | cons p rest ih =>
    intro boxes ans hg hne hk hl
    obtain ⟨i, j, val⟩ := p
    obtain ⟨hpw, hall⟩ := hg
    rw [List.pairwise_cons] at hpw
    obtain ⟨hv, hsv, hsp⟩ := hall _ (List.mem_cons_self ..)
    dsimp only at hv hsv hsp
    have hk0 := hk _ (List.mem_cons_self ..)
    dsimp only at hk0
    have hsp' : i = boxes.length ∨ (i + 1 < bound.length ∧ ∃ row, boxes[i]? = some row ∧ j < row.length) := by
      rcases hsp with h | ⟨row, hr, hj⟩
      · rcases hl with hl | ⟨hl, hl'⟩
        · left; omega
        · have := hl' _ (List.mem_cons_self ..)
          dsimp only at this
          omega
      · right
        have hil : i < orig.length := by
          by_contra hc
          rw [List.getElem?_eq_none (by omega)] at hr
          simp at hr
        exact ⟨by omega, row, by rw [hk0 i (le_refl _), hr], hj⟩
    obtain ⟨boxes', ans', h1, h2, h3, h4, h5⟩ := applyBump_spec bound boxes ans i j val hv hsv hne hsp'
    rw [List.foldlM_cons, h1]
    have hile : i ≤ orig.length := by
      rcases hsp with h | ⟨row, hr, _⟩
      · omega
      · by_contra hc
        rw [List.getElem?_eq_none (by omega)] at hr
        simp at hr
    have hrest : ∀ p ∈ rest, p.1 < i := hpw.1
    obtain ⟨B, A, r1, r2, r3, r4⟩ := ih boxes' ans' ⟨hpw.2, fun p hp => hall p (List.mem_cons_of_mem _ hp)⟩ h3 (by
      intro p hp k hkp
      have := hrest p hp
      rw [h4 k (by omega)]
      exact hk0 k (by omega)) (by
      have hr' : ∀ p ∈ rest, p.1 + 1 ≤ orig.length := fun p hp => by have := hrest p hp; omega
      rcases hl with hl | ⟨hl, hl'⟩
      · rcases h5 with h5 | ⟨h5, h6⟩
        · left; omega
        · right; exact ⟨by omega, hr'⟩
      · have := hl' _ (List.mem_cons_self ..)
        dsimp only at this
        rcases h5 with h5 | ⟨h5, h6⟩
        · right; exact ⟨by omega, hr'⟩
        · omega)
    refine ⟨B, A, r1, ?_, r3, r4⟩
    rw [r2, h2]
    unfold bumpVals
    rw [List.map_cons, List.sum_cons]
    abel

end Verif.Unprime
