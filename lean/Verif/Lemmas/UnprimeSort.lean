import Verif.Lemmas.UnprimeTab

/-!
# `setvalued_column_insert` keeps a column increasing
-/

attribute [-simp] List.getD_eq_getElem?_getD

namespace Verif.Unprime

open Verif

/-- The order of codes along a column: odd codes (primed entries) can repeat. -/
def Rc (x y : Int) : Prop := x < y ∨ (x = y ∧ x % 2 ≠ 0)

theorem Rc.trans {x y z : Int} (h : Rc x y) (h' : Rc y z) : Rc x z := by
  unfold Rc at *; omega

theorem stops_Rc {u x y : Int} (h : stops u x = true) (h' : Rc x y) : Rc u y := by
  unfold stops Rc at *
  simp only [Bool.or_eq_true, Bool.and_eq_true, decide_eq_true_eq] at h
  omega

theorem not_stops_Rc {v x : Int} (h : stops v x = false) : Rc x v := by
  unfold stops at h
  unfold Rc
  simp only [Bool.or_eq_false_iff, Bool.and_eq_false_iff, decide_eq_false_iff_not] at h
  omega

theorem bumpFrom_before (v : Int) (boxes : List (List Int)) (i : Nat) :
    (∀ x ∈ (boxes.take ((bumpFrom v boxes i).1 - i)).flatten, stops v x = false) ∧
    (∀ x ∈ (boxes.getD ((bumpFrom v boxes i).1 - i) []).take (bumpFrom v boxes i).2, stops v x = false) ∧
    ((bumpFrom v boxes i).1 - i < boxes.length → ∃ x ∈ boxes.getD ((bumpFrom v boxes i).1 - i) [], stops v x = true) := by
  induction boxes generalizing i with
  | nil => simp [bumpFrom]
  | cons b t ih =>
    rw [bumpFrom]
    split
    · rename_i j hj
      obtain ⟨hlt, hs, hb⟩ := List.findIdx?_eq_some_iff_getElem.1 hj
      dsimp only
      rw [Nat.sub_self, List.getD_cons_zero]
      refine ⟨by simp, ?_, fun _ => ⟨_, List.getElem_mem hlt, hs⟩⟩
      intro x hx
      obtain ⟨k, hk, rfl⟩ := List.mem_iff_getElem.1 hx
      rw [List.length_take] at hk
      rw [List.getElem_take]
      simpa using hb k (by omega)
    · rename_i hn
      rw [List.findIdx?_eq_none_iff] at hn
      have hge := (bumpFrom_ge v t (i + 1)).1
      obtain ⟨h1, h2, h3⟩ := ih (i + 1)
      rw [show (bumpFrom v t (i + 1)).1 - i = ((bumpFrom v t (i + 1)).1 - (i + 1)) + 1 by omega, List.getD_cons_succ, List.take_succ_cons]
      refine ⟨?_, h2, ?_⟩
      · intro x hx
        rw [List.flatten_cons, List.mem_append] at hx
        rcases hx with hx | hx
        · simpa using hn x hx
        · exact h1 x hx
      · intro h
        exact h3 (by rw [List.length_cons] at h; omega)

/-- What holds of `bumps` if the inserted values are increasing. -/
def SortedBumps (boxes : List (List Int)) (bumps : List (Nat × Nat × List Int)) : Prop :=
  bumps.Pairwise (fun p q => ∀ u ∈ q.2.2, ∀ v ∈ p.2.2, Rc u v) ∧
    ∀ p ∈ bumps, p.2.2.Pairwise Rc ∧ (∀ u ∈ p.2.2, (bumpFrom u boxes 0).1 = p.1) ∧
      ∃ v t, p.2.2 = v :: t ∧ p.2.1 = (bumpFrom v boxes 0).2

theorem sorted_fold (boxes : List (List Int)) (values : List Int) (hs : values.Pairwise Rc) :
    ∀ bumps : List (Nat × Nat × List Int), SortedBumps boxes bumps →
      (∀ p ∈ bumps, ∀ x ∈ p.2.2, ∀ v ∈ values, Rc x v) → SortedBumps boxes (values.foldl (bumpStep boxes) bumps) := by
  induction values with
  | nil => intro bumps h _; exact h
  | cons v t ih =>
    intro bumps h hle
    rw [List.pairwise_cons] at hs
    rw [List.foldl_cons]
    have key : SortedBumps boxes (bumpStep boxes bumps v) ∧ (∀ p ∈ bumpStep boxes bumps v, ∀ x ∈ p.2.2, ∀ u ∈ t, Rc x u) := by
      obtain ⟨i, j, hij⟩ : ∃ i j, bumpFrom v boxes 0 = (i, j) := ⟨_, _, rfl⟩
      unfold bumpStep
      rw [hij]
      dsimp only
      cases bumps with
      | nil =>
        dsimp only
        refine ⟨⟨by simp, ?_⟩, ?_⟩
        · intro p hp
          rw [List.mem_singleton] at hp
          subst hp
          refine ⟨by simp, ?_, v, [], rfl, by rw [hij]⟩
          intro u hu
          rw [List.mem_singleton] at hu
          rw [hu, hij]
        · intro p hp x hx u hu
          rw [List.mem_singleton] at hp
          subst hp
          rw [List.mem_singleton] at hx
          subst hx
          exact hs.1 u hu
      | cons p0 rest =>
        obtain ⟨i', j', val⟩ := p0
        dsimp only
        obtain ⟨hpw, hall⟩ := h
        rw [List.pairwise_cons] at hpw
        obtain ⟨hsv, hrow, hhead⟩ := hall _ (List.mem_cons_self ..)
        dsimp only at hsv hrow hhead
        split_ifs with hi
        · subst hi
          refine ⟨⟨?_, ?_⟩, ?_⟩
          · rw [List.pairwise_cons]
            refine ⟨?_, hpw.2⟩
            intro q hq u hu w hw
            rcases List.mem_append.1 hw with hw | hw
            · exact hpw.1 q hq u hu w hw
            · rw [List.mem_singleton] at hw
              subst hw
              exact hle q (List.mem_cons_of_mem _ hq) u hu w (List.mem_cons_self ..)
          · intro p hp
            rcases List.mem_cons.1 hp with rfl | hp
            · refine ⟨?_, ?_, ?_⟩
              · dsimp only
                rw [List.pairwise_append]
                refine ⟨hsv, by simp, ?_⟩
                intro a ha b hb
                rw [List.mem_singleton] at hb
                subst hb
                exact hle _ (List.mem_cons_self ..) a ha b (List.mem_cons_self ..)
              · intro u hu
                rcases List.mem_append.1 hu with hu | hu
                · exact hrow u hu
                · rw [List.mem_singleton] at hu
                  rw [hu, hij]
              · obtain ⟨v', t', hv', hj'⟩ := hhead
                exact ⟨v', t' ++ [v], by dsimp only; rw [hv', List.cons_append], hj'⟩
            · exact hall p (List.mem_cons_of_mem _ hp)
          · intro p hp x hx u hu
            rcases List.mem_cons.1 hp with rfl | hp
            · rcases List.mem_append.1 hx with hx | hx
              · exact hle _ (List.mem_cons_self ..) x hx u (List.mem_cons_of_mem _ hu)
              · rw [List.mem_singleton] at hx
                subst hx
                exact hs.1 u hu
            · exact hle p (List.mem_cons_of_mem _ hp) x hx u (List.mem_cons_of_mem _ hu)
        · refine ⟨⟨?_, ?_⟩, ?_⟩
          · rw [List.pairwise_cons]
            refine ⟨?_, List.pairwise_cons.2 hpw⟩
            intro q hq u hu w hw
            rw [List.mem_singleton] at hw
            subst hw
            exact hle q hq u hu w (List.mem_cons_self ..)
          · intro p hp
            rcases List.mem_cons.1 hp with rfl | hp
            · refine ⟨by simp, ?_, v, [], rfl, by rw [hij]⟩
              intro u hu
              rw [List.mem_singleton] at hu
              rw [hu, hij]
            · exact hall p hp
          · intro p hp x hx u hu
            rcases List.mem_cons.1 hp with rfl | hp
            · rw [List.mem_singleton] at hx
              subst hx
              exact hs.1 u hu
            · exact hle p hp x hx u (List.mem_cons_of_mem _ hu)
    exact ih hs.2 _ key.1 key.2

theorem applyBump_shape (bound : List Int) (pre post : List (List Int)) (row ans : List Int) (j : Nat) (val : List Int)
    (hsv : val.Pairwise (· ≤ ·)) {boxes' : List (List Int)} {ans' : List Int}
    (h : applyBump bound (pre ++ row :: post, ans) (pre.length, j, val) = some (boxes', ans')) :
    ans' = row.drop j ++ ans ∧ ∃ X, boxes' = pre ++ X ∧ X.flatten = row.take j ++ val ++ post.flatten := by
  unfold applyBump at h
  dsimp only at h
  rw [if_neg (by simp)] at h
  cases val with
  | nil => simp at h
  | cons v rest =>
    rw [List.pairwise_cons] at hsv
    rw [List.getElem?_append_right (le_refl _), Nat.sub_self, List.getElem?_cons_zero] at h
    cases hbd : bound[pre.length + 1]? with
    | none => rw [hbd] at h; simp at h
    | some bd =>
      rw [hbd] at h
      dsimp only at h
      cases hb : row[j]? with
      | none => rw [hb] at h; simp at h
      | some b =>
        rw [hb] at h
        dsimp only at h
        obtain ⟨F, hF⟩ : ∃ F, rest.filter (keeps b bd) = F := ⟨_, rfl⟩
        have hpre := filter_prefix (keeps b bd) (keeps_mono b bd) rest hsv.2
        rw [hF] at hpre h
        simp only [List.length_cons, List.drop_succ_cons] at h
        obtain ⟨L, hL⟩ : ∃ L, rest.drop F.length = L := ⟨_, rfl⟩
        rw [hL] at hpre h
        rw [List.set_append_right _ _ (le_refl _), Nat.sub_self, List.set_cons_zero] at h
        split_ifs at h with h1 h2
        · rw [Option.some.injEq, Prod.mk.injEq] at h
          refine ⟨h.2.symm, _, h.1.symm, ?_⟩
          rw [h1, List.append_nil] at hpre
          rw [List.flatten_cons, ← hpre]
        · rw [Option.some.injEq, Prod.mk.injEq] at h
          have hp : post = [] := by
            rw [← List.length_eq_zero_iff]
            simp only [List.length_append, List.length_cons] at h2
            omega
          subst hp
          refine ⟨h.2.symm, [row.take j ++ v :: F, L], ?_, ?_⟩
          · rw [← h.1, List.append_assoc, List.cons_append, List.nil_append, List.getD_append_right _ _ _ _ (by omega),
              List.set_append_right _ _ (by omega), show pre.length + 1 - pre.length = 1 by omega]
            simp [List.getD]
          · simp only [List.flatten_cons, List.flatten_nil, List.append_nil, List.append_assoc, List.cons_append]
            rw [hpre]
        · rw [Option.some.injEq, Prod.mk.injEq] at h
          cases post with
          | nil => simp at h2
          | cons r2 post =>
            refine ⟨h.2.symm, (row.take j ++ v :: F) :: (L ++ r2) :: post, ?_, ?_⟩
            · rw [← h.1, List.getD_append_right _ _ _ _ (by omega),
                List.set_append_right _ _ (by omega), show pre.length + 1 - pre.length = 1 by omega]
              simp [List.getD]
            · simp only [List.flatten_cons, List.append_assoc, List.cons_append]
              rw [← hpre, List.append_assoc]

theorem sorted_run (bound : List Int) (orig : List (List Int)) (horig : orig.flatten.Pairwise Rc) :
    ∀ (bumps : List (Nat × Nat × List Int)) (boxes : List (List Int)) (ans : List Int),
      GoodBumps orig bumps → SortedBumps orig bumps → boxes.flatten.Pairwise Rc →
      (∀ p ∈ bumps, ∀ k ≤ p.1, boxes[k]? = orig[k]?) →
      (∀ p ∈ bumps, ∀ u ∈ p.2.2, ∀ y ∈ (boxes.drop (p.1 + 1)).flatten, Rc u y) →
      ans.Sublist orig.flatten → (∀ p ∈ bumps, ans.Sublist (orig.drop (p.1 + 1)).flatten) →
      ∀ boxes' ans', bumps.foldlM (applyBump bound) (boxes, ans) = some (boxes', ans') →
        boxes'.flatten.Pairwise Rc ∧ ans'.Sublist orig.flatten := by
  intro bumps
  induction bumps with
  | nil =>
    intro boxes ans _ _ hb _ _ ha _ boxes' ans' h
    rw [List.foldlM_nil] at h
    have h2 : (boxes, ans) = (boxes', ans') := Option.some.inj h
    rw [Prod.mk.injEq] at h2
    rw [← h2.1, ← h2.2]
    exact ⟨hb, ha⟩
  | cons p rest ih =>
    intro boxes ans hg hsb hb hk hR ha hak boxes' ans' h
    obtain ⟨i, j, val⟩ := p
    obtain ⟨hpw, hall⟩ := hg
    obtain ⟨hspw, hsall⟩ := hsb
    rw [List.pairwise_cons] at hpw hspw
    obtain ⟨hv, hsv, hsp⟩ := hall _ (List.mem_cons_self ..)
    obtain ⟨hsv2, hrow, v0, t0, hv0, hj0⟩ := hsall _ (List.mem_cons_self ..)
    dsimp only at hv hsv hsp hsv2 hrow hv0 hj0
    have hk0 := hk _ (List.mem_cons_self ..)
    have hR0 := hR _ (List.mem_cons_self ..)
    have hak0 := hak _ (List.mem_cons_self ..)
    dsimp only at hk0 hR0 hak0
    have hv0m : v0 ∈ val := by rw [hv0]; exact List.mem_cons_self ..
    have hi0 : (bumpFrom v0 orig 0).1 = i := hrow v0 hv0m
    obtain ⟨hb1, hb2, _⟩ := bumpFrom_before v0 orig 0
    rw [Nat.sub_zero, hi0] at hb1 hb2
    rw [← hj0] at hb2
    have htake : boxes.take i = orig.take i := by
      apply List.ext_getElem?
      intro k
      rw [List.getElem?_take, List.getElem?_take]
      split_ifs with hki
      · exact hk0 k (by omega)
      · rfl
    have hvR : ∀ x, stops v0 x = false → ∀ w ∈ val, Rc x w := by
      intro x hx w hw
      have h1 := not_stops_Rc hx
      rw [hv0] at hw hsv2
      rcases List.mem_cons.1 hw with rfl | hw
      · exact h1
      · exact h1.trans ((List.pairwise_cons.1 hsv2).1 w hw)
    rw [List.foldlM_cons] at h
    cases hstep : applyBump bound (boxes, ans) (i, j, val) with
    | none => rw [hstep] at h; simp at h
    | some st =>
      obtain ⟨B, A⟩ := st
      rw [hstep] at h
      dsimp only [bind, Option.bind] at h
      -- the shape of the new column
      have shape : (A.Sublist (orig.drop i).flatten) ∧ ∃ X Y, B = boxes.take i ++ X ∧ X.flatten = Y ++ val ++ (boxes.drop (i + 1)).flatten ∧
          (∃ Z, (boxes.drop i).flatten = Y ++ Z ++ (boxes.drop (i + 1)).flatten) ∧ (∀ y ∈ Y, stops v0 y = false) := by
        by_cases hi : i = boxes.length
        · unfold applyBump at hstep
          dsimp only at hstep
          rw [if_pos hi, Option.some.injEq, Prod.mk.injEq] at hstep
          refine ⟨?_, [val], [], ?_, ?_, ⟨[], ?_⟩, by simp⟩
          · rw [← hstep.2]
            refine hak0.trans ?_
            apply List.Sublist.flatten
            rw [show orig.drop (i + 1) = (orig.drop i).drop 1 by rw [List.drop_drop]]
            exact List.drop_sublist _ _
          · rw [← hstep.1, hi, List.take_length]
          · rw [List.drop_eq_nil_of_le (by omega)]; simp
          · rw [List.drop_eq_nil_of_le (by omega), List.drop_eq_nil_of_le (by omega)]; simp
        · have hil : i < boxes.length := by
            rcases hsp with hsp | ⟨row, hr, _⟩
            · by_contra hc
              have h1 : boxes.length ≤ orig.length := by
                by_contra hc2
                omega
              have h2 := hk0 boxes.length (by omega)
              rw [List.getElem?_eq_none (le_refl _)] at h2
              have : orig.length ≤ boxes.length := by
                by_contra hc3
                rw [List.getElem?_eq_getElem (by omega)] at h2
                simp at h2
              omega
            · rw [← hk0 i (le_refl _)] at hr
              by_contra hc
              rw [List.getElem?_eq_none (by omega)] at hr
              simp at hr
          have hrowi : orig[i]? = some boxes[i] := by
            rw [← hk0 i (le_refl _), List.getElem?_eq_getElem hil]
          have hdec : boxes = boxes.take i ++ boxes[i] :: boxes.drop (i + 1) := by
            rw [← List.drop_eq_getElem_cons, List.take_append_drop]
          have hlt : (boxes.take i).length = i := by rw [List.length_take]; omega
          obtain ⟨row, hrw⟩ : ∃ row, boxes[i] = row := ⟨_, rfl⟩
          rw [hrw] at hrowi hdec
          have hstep2 : applyBump bound (boxes.take i ++ row :: boxes.drop (i + 1), ans) ((boxes.take i).length, j, val) = some (B, A) := by
            rw [← hdec, hlt]; exact hstep
          obtain ⟨e1, X, e2, e3⟩ := applyBump_shape bound _ _ _ _ _ _ hsv hstep2
          have horigd : orig.drop i = row :: orig.drop (i + 1) := by
            have hio : i < orig.length := by
              by_contra hc
              rw [List.getElem?_eq_none (by omega)] at hrowi
              simp at hrowi
            rw [List.drop_eq_getElem_cons hio]
            rw [List.getElem?_eq_getElem hio, Option.some.injEq] at hrowi
            rw [hrowi]
          refine ⟨?_, X, row.take j, e2, e3, ⟨row.drop j, ?_⟩, ?_⟩
          · rw [e1, horigd, List.flatten_cons]
            exact (List.drop_sublist _ _).append hak0
          · rw [List.take_append_drop, List.drop_eq_getElem_cons hil, hrw, List.flatten_cons]
          · have : orig.getD i [] = row := by rw [List.getD_eq_getElem?_getD, hrowi]; rfl
            rw [this] at hb2
            exact hb2
      obtain ⟨hA, X, Y, hB, hX, ⟨Z, hZ⟩, hY⟩ := shape
      have hfl : boxes.flatten = (boxes.take i).flatten ++ (Y ++ Z ++ (boxes.drop (i + 1)).flatten) := by
        rw [← hZ, ← List.flatten_append, List.take_append_drop]
      have hBp : B.flatten.Pairwise Rc := by
        rw [hB, List.flatten_append, hX]
        rw [hfl] at hb
        simp only [List.pairwise_append, List.mem_append] at hb ⊢
        refine ⟨hb.1, ⟨⟨hb.2.1.1.1, hsv2, ?_⟩, hb.2.1.2.1, ?_⟩, ?_⟩
        · intro a ha b hb'
          exact hvR a (hY a ha) b hb'
        · intro a ha b hb'
          rcases ha with ha | ha
          · exact hb.2.1.2.2 a (Or.inl ha) b hb'
          · exact hR0 a ha b hb'
        · intro a ha b hb'
          rcases hb' with (hb' | hb') | hb'
          · exact hb.2.2 a ha b (Or.inl (Or.inl hb'))
          · rw [htake] at ha
            exact hvR a (hb1 a ha) b hb'
          · exact hb.2.2 a ha b (Or.inr hb')
      have hrest : ∀ q ∈ rest, q.1 < i := hpw.1
      have hdropsub : ∀ q ∈ rest, (orig.drop i).flatten.Sublist (orig.drop (q.1 + 1)).flatten := by
        intro q hq
        have := hrest q hq
        apply List.Sublist.flatten
        rw [show i = q.1 + 1 + (i - (q.1 + 1)) by omega, ← List.drop_drop]
        exact List.drop_sublist _ _
      refine ih B A ⟨hpw.2, fun q hq => hall q (List.mem_cons_of_mem _ hq)⟩ ⟨hspw.2, fun q hq => hsall q (List.mem_cons_of_mem _ hq)⟩ hBp ?_ ?_
        (hA.trans ((List.drop_sublist _ _).flatten)) (fun q hq => hA.trans (hdropsub q hq)) boxes' ans' h
      · intro q hq k hkq
        have hqi := hrest q hq
        rw [hB]
        by_cases hki : k < (boxes.take i).length
        · rw [List.getElem?_append_left hki, List.getElem?_take, if_pos (by omega)]
          exact hk0 k (by omega)
        · exfalso
          rw [List.length_take] at hki
          have hbl : boxes.length ≤ k := by omega
          -- a row before the row `i` exists
          obtain ⟨_, _, hsq⟩ := hall q (List.mem_cons_of_mem _ hq)
          have hkb := hk0 k (by omega)
          rw [List.getElem?_eq_none hbl] at hkb
          have hok : orig.length ≤ k := by
            by_contra hc
            rw [List.getElem?_eq_getElem (by omega)] at hkb
            simp at hkb
          rcases hsp with hsp | ⟨r, hr, _⟩
          · omega
          · rw [List.getElem?_eq_none (by omega)] at hr
            simp at hr
      · intro q hq u hu y hy
        have hqi := hrest q hq
        rw [hB, List.drop_append] at hy
        have hcase : y ∈ ((boxes.take i).drop (q.1 + 1)).flatten ∨ y ∈ X.flatten := by
          rw [List.flatten_append, List.mem_append] at hy
          rcases hy with hy | hy
          · exact Or.inl hy
          · right
            exact ((List.drop_sublist _ _).flatten).subset hy
        have hmem : y ∈ (boxes.drop (q.1 + 1)).flatten ∨ y ∈ val := by
          have hd : boxes.drop i = (boxes.drop (q.1 + 1)).drop (i - (q.1 + 1)) := by
            rw [List.drop_drop]; congr 1; omega
          have hsub : ∀ z, z ∈ (boxes.drop i).flatten → z ∈ (boxes.drop (q.1 + 1)).flatten := by
            intro z hz
            rw [hd] at hz
            exact ((List.drop_sublist _ _).flatten).subset hz
          rcases hcase with hy | hy
          · left
            exact (((List.take_sublist _ _).drop _).flatten).subset hy
          · rw [hX] at hy
            simp only [List.mem_append] at hy
            rcases hy with (hy | hy) | hy
            · left; apply hsub; rw [hZ]; simp only [List.mem_append]; tauto
            · right; exact hy
            · left; apply hsub; rw [hZ]; simp only [List.mem_append]; tauto
        rcases hmem with hy | hy
        · exact hR q (List.mem_cons_of_mem _ hq) u hu y hy
        · exact hspw.1 q hq u hu y hy

/-- The condition on the remaining bumps holds at the start. -/
theorem start_Rc (orig : List (List Int)) (horig : orig.flatten.Pairwise Rc) (bumps : List (Nat × Nat × List Int)) (h : SortedBumps orig bumps) :
    ∀ p ∈ bumps, ∀ u ∈ p.2.2, ∀ y ∈ (orig.drop (p.1 + 1)).flatten, Rc u y := by
  intro p hp u hu y hy
  have hrow := (h.2 p hp).2.1 u hu
  obtain ⟨_, _, h3⟩ := bumpFrom_before u orig 0
  rw [Nat.sub_zero, hrow] at h3
  have hlt : p.1 < orig.length := by
    by_contra hc
    rw [List.drop_eq_nil_of_le (by omega)] at hy
    simp at hy
  obtain ⟨x, hx, hst⟩ := h3 hlt
  refine stops_Rc hst ?_
  have hd : (orig.drop p.1).flatten.Pairwise Rc := horig.sublist ((List.drop_sublist _ _).flatten)
  rw [List.drop_eq_getElem_cons hlt, List.flatten_cons, List.pairwise_append] at hd
  rw [List.getD_eq_getElem _ _ hlt] at hx
  exact hd.2.2 x hx y hy

end Verif.Unprime
