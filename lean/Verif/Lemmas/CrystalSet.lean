import Verif.Lemmas.TabSemi

/-! The crystal operators on semistandard set-valued tableaux: helper lemmas. -/

namespace Verif.Tab

open Verif.Part Verif.Words

attribute [-simp] List.getD_eq_getElem?_getD

abbrev Ent := (Nat × Nat) × Int

/-- The strict order of the entries. -/
def svLt (s t : Ent) : Prop := s.1.2 < t.1.2 ∨ (s.1.2 = t.1.2 ∧ (t.1.1 < s.1.1 ∨ (s.1.1 = t.1.1 ∧ t.2 < s.2)))

theorem svLt_irrefl (s : Ent) : ¬ svLt s s := by unfold svLt; omega

theorem svLt_trans {s t u : Ent} (h1 : svLt s t) (h2 : svLt t u) : svLt s u := by unfold svLt at *; omega

theorem svLt_asymm {s t : Ent} (h1 : svLt s t) (h2 : svLt t s) : False := by unfold svLt at *; omega

theorem svLt_total {s t : Ent} (h : s ≠ t) : svLt s t ∨ svLt t s := by
  have : ¬ (s.1.1 = t.1.1 ∧ s.1.2 = t.1.2 ∧ s.2 = t.2) := by
    rintro ⟨h1, h2, h3⟩; exact h (Prod.ext (Prod.ext h1 h2) h3)
  unfold svLt; omega

theorem svLe_iff {s t : Ent} : svLe s t = true ↔ svLt s t ∨ s = t := by
  unfold svLe svLt
  rw [decide_eq_true_iff]
  constructor
  · intro h
    by_cases he : s = t
    · right; exact he
    · left
      have : ¬ (s.1.1 = t.1.1 ∧ s.1.2 = t.1.2 ∧ s.2 = t.2) := by
        rintro ⟨h1, h2, h3⟩; exact he (Prod.ext (Prod.ext h1 h2) h3)
      omega
  · rintro (h | rfl)
    · omega
    · omega

theorem mem_svEntries {i : Int} {T : Tab} {p : Ent} : p ∈ svEntries i T ↔ p.2 ∈ T.ent p.1 ∧ (p.2 = i ∨ p.2 = i + 1) := by
  unfold svEntries
  rw [(List.perm_insertionSort _ _).mem_iff, List.mem_flatMap]
  constructor
  · rintro ⟨⟨c, s⟩, hp, hv⟩
    simp only [List.mem_map, List.mem_filter, decide_eq_true_eq] at hv
    obtain ⟨x, ⟨hx, hx'⟩, rfl⟩ := hv
    rw [Tab.ent, Tab.get?_eq_some.2 hp]
    exact ⟨hx, hx'⟩
  · rintro ⟨hv, h⟩
    rw [Tab.ent] at hv
    cases hg : T.get? p.1 with
    | none => simp [hg] at hv
    | some s =>
      rw [hg] at hv
      refine ⟨(p.1, s), Tab.get?_eq_some.1 hg, ?_⟩
      simp only [List.mem_map, List.mem_filter, decide_eq_true_eq]
      exact ⟨p.2, ⟨hv, h⟩, rfl⟩

theorem svEntries_sorted {D : Set (Nat × Nat)} {T : Tab} (hT : Base false D T) (i : Int) : (svEntries i T).Pairwise svLt := by
  have hnd : (svEntries i T).Nodup := by
    unfold svEntries
    rw [(List.perm_insertionSort _ _).nodup_iff, List.nodup_flatMap]
    constructor
    · rintro ⟨c, s⟩ hp
      have h := hT.strict rfl c
      rw [Tab.ent, Tab.get?_eq_some.2 hp] at h
      apply List.Nodup.map
      · intro x y hxy; exact (Prod.mk.injEq _ _ _ _ ▸ hxy).2
      · exact List.Nodup.filter _ (h.imp (fun h => ne_of_lt h))
    · have := T.keys_nodup
      rw [List.Nodup, List.pairwise_map] at this
      apply this.imp
      rintro ⟨c, s⟩ ⟨c', s'⟩ hne
      rw [Function.onFun, List.disjoint_left]
      rintro ⟨b, v⟩ h1 h2
      simp only [List.mem_map, Prod.mk.injEq] at h1 h2
      obtain ⟨_, _, h1, _⟩ := h1
      obtain ⟨_, _, h2, _⟩ := h2
      exact hne (h1.trans h2.symm)
  have hs : (svEntries i T).Pairwise (fun s t => svLe s t = true) := by
    unfold svEntries
    have : Std.Total (fun s t : Ent => svLe s t = true) := ⟨fun s t => by
      rw [svLe_iff, svLe_iff]
      by_cases h : s = t
      · tauto
      · have := svLt_total h; tauto⟩
    have : IsTrans Ent (fun s t : Ent => svLe s t = true) := ⟨fun s t u h1 h2 => by
      rw [svLe_iff] at *
      rcases h1 with h1 | rfl
      · rcases h2 with h2 | rfl
        · exact Or.inl (svLt_trans h1 h2)
        · exact Or.inl h1
      · exact h2⟩
    exact List.pairwise_insertionSort _ _
  rw [List.Nodup] at hnd
  exact (hs.and hnd).imp (fun h => by
    rcases svLe_iff.1 h.1 with h' | h'
    · exact h'
    · exact absurd h' h.2)

theorem svLt_ext {l l' : List Ent} (h : l.Pairwise svLt) (h' : l'.Pairwise svLt) (hm : ∀ p, p ∈ l ↔ p ∈ l') : l = l' := by
  have n1 : l.Nodup := h.imp (fun {a b} hab => by rintro rfl; exact svLt_irrefl _ hab)
  have n2 : l'.Nodup := h'.imp (fun {a b} hab => by rintro rfl; exact svLt_irrefl _ hab)
  have hp : l.Perm l' := (List.perm_ext_iff_of_nodup n1 n2).2 hm
  exact hp.eq_of_pairwise (fun a b _ _ h1 h2 => (svLt_asymm h1 h2).elim) h h'

theorem svEntries_eq {D : Set (Nat × Nat)} {T : Tab} (hT : Base false D T) {i : Int} {l : List Ent} (hl : l.Pairwise svLt)
    (hm : ∀ p, p ∈ l ↔ p.2 ∈ T.ent p.1 ∧ (p.2 = i ∨ p.2 = i + 1)) : svEntries i T = l :=
  svLt_ext (svEntries_sorted hT i) hl (fun p => by rw [mem_svEntries, hm])

theorem svCancelOnce_eq (s : List Ent) : svCancelOnce s = Words.cancelOnce s := by
  induction s with
  | nil => rfl
  | cons p s ih =>
    cases s with
    | nil => rfl
    | cons q s => rw [svCancelOnce, Words.cancelOnce, ih]

theorem svCancel_eq (s : List Ent) : svCancel s = Words.cancel s := by
  induction hn : s.length using Nat.strong_induction_on generalizing s with
  | _ n ih =>
    subst hn
    rw [svCancel, Words.cancel, svCancelOnce_eq]
    split
    · rename_i h; exact ih _ h _ rfl
    · rfl

theorem two_svEntries (i : Int) (T : Tab) : Two i (svEntries i T) := fun _ hp => (mem_svEntries.1 hp).2

theorem fSet?_eq (i : Int) (T : Tab) : fSet? i T = match (pq i (svEntries i T)).1 with
    | [] => some none
    | ((x, y), _) :: _ =>
      if i ∈ T.ent (x, y + 1) then (T.removeVal? (x, y + 1) i).map (fun U => some (U.add (x, y) (i + 1)))
      else (T.removeVal? (x, y) i).map (fun U => some (U.add (x, y) (i + 1))) := by
  rw [fSet?, svCancel_eq, (cancel_eq i _ (two_svEntries i T)).2.1, List.getLast?_reverse]
  cases (pq i (svEntries i T)).1 <;> rfl

theorem eSet?_eq (i : Int) (T : Tab) : eSet? i T = match (pq i (svEntries i T)).2.getLast? with
    | none => some none
    | some ((x, y), _) =>
      if i + 1 ∈ T.ent (x, y - 1) then (T.removeVal? (x, y - 1) (i + 1)).map (fun U => some (U.add (x, y) i))
      else (T.removeVal? (x, y) (i + 1)).map (fun U => some (U.add (x, y) i)) := by
  rw [eSet?, svCancel_eq, (cancel_eq i _ (two_svEntries i T)).2.2, List.head?_reverse]
  cases (pq i (svEntries i T)).2.getLast? <;> rfl

variable {n : Nat} {D : Set (Nat × Nat)} {T U : Tab} {i : Int} {x y : Nat}

/-! ### rows of the letters in a column -/

theorem same_row (h : Semi false n D T) (hD : Convex D) {x x' y : Nat} {v : Int} (h1 : v ∈ T.ent (x, y)) (h2 : v ∈ T.ent (x', y)) :
    x = x' := by
  rcases Nat.lt_trichotomy x x' with hlt | he | hlt
  · have := h.colLt hD hlt h1 h2; omega
  · exact he
  · have := h.colLt hD hlt h2 h1; omega

theorem next_row (h : Semi false n D T) (hD : Convex D) {x x' y : Nat} {i : Int} (h1 : i ∈ T.ent (x, y))
    (h2 : i + 1 ∈ T.ent (x', y)) : x' = x ∨ x' = x + 1 := by
  rcases Nat.lt_trichotomy x x' with hlt | he | hlt
  · have := h.colLt hD hlt h1 h2; omega
  · exact Or.inl he.symm
  · have := h.colLt hD hlt h2 h1; omega

/-! ### the chosen letter -/

theorem fold_fst_ne {α : Type} (i : Int) (v : List (α × Int)) (st : StOf α) (h : st.1 ≠ []) : (v.foldl (step i) st).1 ≠ [] := by
  induction v generalizing st with
  | nil => exact h
  | cons c v ih =>
    rw [List.foldl_cons]
    apply ih
    unfold step
    split
    · exact h
    · split
      · simp
      · exact h

theorem fold_pair {α : Type} {i : Int} (st : StOf α) {p q : α × Int} (hp : p.2 = i + 1) (hq : q.2 = i) :
    step i (step i st p) q = st := by
  rw [step_J hp, step_I_cons (by rw [hq]; omega)]

theorem fold_pair' {α : Type} {i : Int} (st : StOf α) (p q : α) : step i (step i st (p, i + 1)) (q, i) = st :=
  fold_pair st rfl rfl

/-- If the unmatched `i` in `(x, y)` is read between `u` and `v`, then there is no `i + 1` in column `y`. -/
theorem f_col (h : Semi false n D T) (hD : Convex D) {u v : List Ent} {P : List Ent} (hs : svEntries i T = u ++ ((x, y), i) :: v)
    (hu : pq i u = (P, [])) : ∀ x', i + 1 ∉ T.ent (x', y) := by
  intro x' hx'
  have hsort := svEntries_sorted h.toBase i
  have hi : i ∈ T.ent (x, y) := (mem_svEntries (i := i) (p := ((x, y), i)) |>.1 (by rw [hs]; simp)).1
  have hc : (((x', y), i + 1) : Ent) ∈ svEntries i T := mem_svEntries.2 ⟨hx', Or.inr rfl⟩
  have hlt : svLt ((x', y), i + 1) ((x, y), i) := by
    rcases next_row h hD hi hx' with rfl | rfl <;> simp [svLt]
  rw [hs] at hc hsort
  rw [List.pairwise_append, List.pairwise_cons] at hsort
  obtain ⟨su, ⟨sv, _⟩, suv⟩ := hsort
  have hcu : (((x', y), i + 1) : Ent) ∈ u := by
    rcases List.mem_append.1 hc with hc | hc
    · exact hc
    · rcases List.mem_cons.1 hc with hc | hc
      · rw [hc] at hlt; exact (svLt_irrefl _ hlt).elim
      · exact (svLt_asymm hlt (sv _ hc)).elim
  obtain ⟨u1, u2, rfl⟩ := List.append_of_mem hcu
  cases hu2 : u2.reverse with
  | nil =>
    have : u2 = [] := by simpa using hu2
    subst this
    rw [pq_snoc, step_J rfl] at hu
    simp at hu
  | cons d u3 =>
    have hd : d ∈ u2 := by rw [← List.mem_reverse, hu2]; simp
    have hdm : d ∈ svEntries i T := by rw [hs]; simp [hd]
    rw [mem_svEntries] at hdm
    have h1 : svLt ((x', y), i + 1) d := by
      rw [List.pairwise_append, List.pairwise_cons] at su
      exact su.2.1.1 d hd
    have h2 : svLt d ((x, y), i) := suv d (by simp [hd]) _ (by simp)
    obtain ⟨⟨dx, dy⟩, dv⟩ := d
    simp only at hdm
    have hy : dy = y := by simp only [svLt] at h1 h2; omega
    subst hy
    rcases hdm.2 with rfl | rfl
    · have := same_row h hD hdm.1 hi; subst this; exact (svLt_irrefl _ h2).elim
    · have := same_row h hD hdm.1 hx'; subst this; exact (svLt_irrefl _ h1).elim

/-- If moreover `i` is in `(x, y + 1)`, then so is `i + 1`, and these two letters are read next. -/
theorem f_next (h : Semi false n D T) (hD : Convex D) {u v : List Ent} {P Q : List Ent} (hs : svEntries i T = u ++ ((x, y), i) :: v)
    (hu : pq i u = (P, [])) (hv : pq i v = ([], Q)) (hn : i ∈ T.ent (x, y + 1)) :
    i + 1 ∈ T.ent (x, y + 1) ∧ ∃ v', v = ((x, y + 1), i + 1) :: ((x, y + 1), i) :: v' := by
  have hcol := f_col h hD hs hu
  have hsort := svEntries_sorted h.toBase i
  have hi : i ∈ T.ent (x, y) := (mem_svEntries (i := i) (p := ((x, y), i)) |>.1 (by rw [hs]; simp)).1
  rw [hs] at hsort
  rw [List.pairwise_append, List.pairwise_cons] at hsort
  obtain ⟨su, ⟨sv, svv⟩, suv⟩ := hsort
  have hcv : ∀ p : Ent, p ∈ svEntries i T → svLt ((x, y), i) p → p ∈ v := by
    intro p hp hlt
    rw [hs] at hp
    rcases List.mem_append.1 hp with hc | hc
    · exact (svLt_asymm hlt (suv _ hc _ (by simp))).elim
    · rcases List.mem_cons.1 hc with hc | hc
      · rw [hc] at hlt; exact (svLt_irrefl _ hlt).elim
      · exact hc
  -- the letters of `v` before `((x, y + 1), i)` are in column `y + 1`
  have hbefore : ∀ d ∈ v, svLt d ((x, y + 1), i) → d.1.2 = y + 1 ∧ d.2 = i + 1 := by
    intro d hd hlt
    have hdm : d ∈ svEntries i T := by rw [hs]; simp [hd]
    rw [mem_svEntries] at hdm
    have h1 := sv d hd
    obtain ⟨⟨dx, dy⟩, dv⟩ := d
    simp only at hdm ⊢
    by_cases hy : dy = y
    · subst hy
      exfalso
      rcases hdm.2 with rfl | rfl
      · have := same_row h hD hdm.1 hi; subst this; exact (svLt_irrefl _ h1).elim
      · exact hcol dx hdm.1
    · have hy : dy = y + 1 := by simp only [svLt] at h1 hlt; omega
      subst hy
      refine ⟨rfl, ?_⟩
      rcases hdm.2 with rfl | rfl
      · have := same_row h hD hdm.1 hn; subst this; exact (svLt_irrefl _ hlt).elim
      · rfl
  have hnv : (((x, y + 1), i) : Ent) ∈ v := hcv _ (mem_svEntries.2 ⟨hn, Or.inl rfl⟩) (by simp [svLt])
  -- there is `i + 1` in column `y + 1`
  have hex : ∃ x', i + 1 ∈ T.ent (x', y + 1) := by
    by_contra hno
    push Not at hno
    obtain ⟨v1, v2, rfl⟩ := List.append_of_mem hnv
    cases v1 with
    | nil =>
      rw [List.nil_append] at hv
      have := fold_fst_ne i v2 (step i ([], []) (((x, y + 1), i) : Ent)) (by rw [step_I_nil (by simp)]; simp)
      rw [pq, List.foldl_cons] at hv
      rw [hv] at this
      exact this rfl
    | cons d v1 =>
      have hdlt : svLt d ((x, y + 1), i) := by
        rw [List.cons_append, List.pairwise_cons] at svv
        exact svv.1 _ (by simp)
      obtain ⟨e1, e2⟩ := hbefore d (by simp) hdlt
      have hdm : d ∈ svEntries i T := by rw [hs]; simp
      rw [mem_svEntries] at hdm
      obtain ⟨⟨dx, dy⟩, dv⟩ := d
      simp only at e1 e2 hdm
      subst e1 e2
      exact hno dx hdm.1
  obtain ⟨x', hx'⟩ := hex
  have hxx : x' = x := by
    rcases next_row h hD hn hx' with rfl | rfl
    · rfl
    · exfalso
      have hb : (x + 1, y) ∈ D := hD x y (x + 1) (y + 1) _ _ (h.toBase.mem_D hi) (h.toBase.mem_D hx') (by omega) le_rfl le_rfl (by omega)
      obtain ⟨z, hz⟩ := List.exists_mem_of_ne_nil _ (h.ne _ hb)
      have h1 := h.col _ _ _ hi _ hz
      have h2 := h.row _ _ _ hz _ hx'
      have : z = i + 1 := by omega
      subst this
      exact hcol _ hz
  subst hxx
  refine ⟨hx', ?_⟩
  have hnv' : (((x', y + 1), i + 1) : Ent) ∈ v := hcv _ (mem_svEntries.2 ⟨hx', Or.inr rfl⟩) (by simp [svLt])
  obtain ⟨v1, v2, rfl⟩ := List.append_of_mem hnv'
  rw [List.pairwise_append, List.pairwise_cons] at svv
  have hv1 : v1 = [] := by
    rcases hv1 : v1 with _ | ⟨d, v1'⟩
    · rfl
    · exfalso
      have h1 : svLt d ((x', y + 1), i + 1) := svv.2.2 d (by rw [hv1]; simp) _ (by simp)
      obtain ⟨e1, e2⟩ := hbefore d (by rw [hv1]; simp) (svLt_trans h1 (by simp [svLt]))
      have hdm : d ∈ svEntries i T := by rw [hs, hv1]; simp
      rw [mem_svEntries] at hdm
      obtain ⟨⟨dx, dy⟩, dv⟩ := d
      simp only at e1 e2 hdm
      subst e1 e2
      have := same_row h hD hdm.1 hx'; subst this; exact svLt_irrefl _ h1
  subst hv1
  have hnv2 : (((x', y + 1), i) : Ent) ∈ v2 := by
    rw [List.nil_append] at hnv
    rcases List.mem_cons.1 hnv with hc | hc
    · simp at hc
    · exact hc
  obtain ⟨v3, v4, rfl⟩ := List.append_of_mem hnv2
  rcases hv3 : v3 with _ | ⟨d, v3'⟩
  · exact ⟨v4, rfl⟩
  · exfalso
    have h1 : svLt ((x', y + 1), i + 1) d := svv.2.1.1 d (by rw [hv3]; simp)
    have h2 : svLt d ((x', y + 1), i) := by
      have := svv.2.1.2
      rw [List.pairwise_append] at this
      exact this.2.2 d (by rw [hv3]; simp) _ (by simp)
    obtain ⟨e1, e2⟩ := hbefore d (by rw [hv3]; simp) h2
    have hdm : d ∈ svEntries i T := by rw [hs, hv3]; simp
    rw [mem_svEntries] at hdm
    obtain ⟨⟨dx, dy⟩, dv⟩ := d
    simp only at e1 e2 hdm
    subst e1 e2
    have := same_row h hD hdm.1 hx'; subst this; exact svLt_irrefl _ h1

/-- If the unmatched `i + 1` in `(x, y)` is read between `u` and `v`, then there is no `i` in column `y`. -/
theorem e_col (h : Semi false n D T) (hD : Convex D) {u v : List Ent} {Q : List Ent}
    (hs : svEntries i T = u ++ ((x, y), i + 1) :: v) (hv : pq i v = ([], Q)) : ∀ x', i ∉ T.ent (x', y) := by
  intro x' hx'
  have hsort := svEntries_sorted h.toBase i
  have hi : i + 1 ∈ T.ent (x, y) := (mem_svEntries (i := i) (p := ((x, y), i + 1)) |>.1 (by rw [hs]; simp)).1
  have hc : (((x', y), i) : Ent) ∈ svEntries i T := mem_svEntries.2 ⟨hx', Or.inl rfl⟩
  have hlt : svLt ((x, y), i + 1) ((x', y), i) := by
    rcases next_row h hD hx' hi with rfl | rfl <;> simp [svLt]
  rw [hs] at hc hsort
  rw [List.pairwise_append, List.pairwise_cons] at hsort
  obtain ⟨su, ⟨sv, svv⟩, suv⟩ := hsort
  have hcv : (((x', y), i) : Ent) ∈ v := by
    rcases List.mem_append.1 hc with hc | hc
    · exact (svLt_asymm hlt (suv _ hc _ (by simp))).elim
    · rcases List.mem_cons.1 hc with hc | hc
      · rw [hc] at hlt; exact (svLt_irrefl _ hlt).elim
      · exact hc
  obtain ⟨v1, v2, rfl⟩ := List.append_of_mem hcv
  cases v1 with
  | nil =>
    rw [List.nil_append] at hv
    have := fold_fst_ne i v2 (step i ([], []) (((x', y), i) : Ent)) (by rw [step_I_nil (by simp)]; simp)
    rw [pq, List.foldl_cons] at hv
    rw [hv] at this
    exact this rfl
  | cons d v1 =>
    have h2 : svLt d ((x', y), i) := by
      rw [List.cons_append, List.pairwise_cons] at svv
      exact svv.1 _ (by simp)
    have hdm : d ∈ svEntries i T := by rw [hs]; simp
    rw [mem_svEntries] at hdm
    have h1 : svLt ((x, y), i + 1) d := sv d (by simp)
    obtain ⟨⟨dx, dy⟩, dv⟩ := d
    simp only at hdm
    have hy : dy = y := by simp only [svLt] at h1 h2; omega
    subst hy
    rcases hdm.2 with rfl | rfl
    · have := same_row h hD hdm.1 hx'; subst this; exact (svLt_irrefl _ h2).elim
    · have := same_row h hD hdm.1 hi; subst this; exact (svLt_irrefl _ h1).elim

/-- If moreover `i + 1` is in the box before `(x, y)`, then so is `i`, and these two letters have just been read. -/
theorem e_prev (h : Semi false n D T) (hD : Convex D) {u v : List Ent} {P Q : List Ent}
    (hs : svEntries i T = u ++ ((x, y + 1), i + 1) :: v)
    (hu : pq i u = (P, [])) (hv : pq i v = ([], Q)) (hn : i + 1 ∈ T.ent (x, y)) :
    i ∈ T.ent (x, y) ∧ ∃ u', u = u' ++ [((x, y), i + 1), ((x, y), i)] := by
  have hcol := e_col h hD hs hv
  have hsort := svEntries_sorted h.toBase i
  have hi : i + 1 ∈ T.ent (x, y + 1) := (mem_svEntries (i := i) (p := ((x, y + 1), i + 1)) |>.1 (by rw [hs]; simp)).1
  rw [hs] at hsort
  rw [List.pairwise_append, List.pairwise_cons] at hsort
  obtain ⟨su, ⟨sv, svv⟩, suv⟩ := hsort
  have hcu : ∀ p : Ent, p ∈ svEntries i T → svLt p ((x, y + 1), i + 1) → p ∈ u := by
    intro p hp hlt
    rw [hs] at hp
    rcases List.mem_append.1 hp with hc | hc
    · exact hc
    · rcases List.mem_cons.1 hc with hc | hc
      · rw [hc] at hlt; exact (svLt_irrefl _ hlt).elim
      · exact (svLt_asymm hlt (sv _ hc)).elim
  have hafter : ∀ d ∈ u, svLt ((x, y), i + 1) d → d.1.2 = y ∧ d.2 = i := by
    intro d hd hlt
    have hdm : d ∈ svEntries i T := by rw [hs]; simp [hd]
    rw [mem_svEntries] at hdm
    have h1 := suv d hd _ (List.mem_cons_self ..)
    obtain ⟨⟨dx, dy⟩, dv⟩ := d
    simp only at hdm ⊢
    by_cases hy : dy = y + 1
    · subst hy
      exfalso
      rcases hdm.2 with rfl | rfl
      · exact hcol dx hdm.1
      · have := same_row h hD hdm.1 hi; subst this; exact (svLt_irrefl _ h1).elim
    · have hy : dy = y := by simp only [svLt] at h1 hlt; omega
      subst hy
      refine ⟨rfl, ?_⟩
      rcases hdm.2 with rfl | rfl
      · rfl
      · have := same_row h hD hdm.1 hn; subst this; exact (svLt_irrefl _ hlt).elim
  have hnu : (((x, y), i + 1) : Ent) ∈ u := hcu _ (mem_svEntries.2 ⟨hn, Or.inr rfl⟩) (by simp [svLt])
  obtain ⟨u1, u2, rfl⟩ := List.append_of_mem hnu
  rw [List.pairwise_append, List.pairwise_cons] at su
  have hu2 : u2 ≠ [] := by
    rintro rfl
    rw [pq_snoc, step_J rfl] at hu
    simp at hu
  have hex : ∃ x', i ∈ T.ent (x', y) := by
    obtain ⟨d, hd⟩ := List.exists_mem_of_ne_nil _ hu2
    obtain ⟨e1, e2⟩ := hafter d (by simp [hd]) (su.2.1.1 d hd)
    have hdm : d ∈ svEntries i T := by rw [hs]; simp [hd]
    rw [mem_svEntries] at hdm
    obtain ⟨⟨dx, dy⟩, dv⟩ := d
    simp only at e1 e2 hdm
    subst e1 e2
    exact ⟨dx, hdm.1⟩
  obtain ⟨x', hx'⟩ := hex
  have hxx : x' = x := by
    rcases next_row h hD hx' hn with rfl | rfl
    · rfl
    · exfalso
      have hb : (x', y + 1) ∈ D := hD x' y (x' + 1) (y + 1) _ _ (h.toBase.mem_D hx') (h.toBase.mem_D hi) le_rfl (by omega) (by omega) le_rfl
      obtain ⟨z, hz⟩ := List.exists_mem_of_ne_nil _ (h.ne _ hb)
      have h1 := h.row _ _ _ hx' _ hz
      have h2 := h.col _ _ _ hz _ hi
      have : z = i := by omega
      subst this
      exact hcol _ hz
  subst hxx
  refine ⟨hx', u1, ?_⟩
  congr 2
  -- `u2` consists of `((x', y), i)` only
  have hall : ∀ d ∈ u2, d = ((x', y), i) := by
    intro d hd
    obtain ⟨e1, e2⟩ := hafter d (by simp [hd]) (su.2.1.1 d hd)
    have hdm : d ∈ svEntries i T := by rw [hs]; simp [hd]
    rw [mem_svEntries] at hdm
    obtain ⟨⟨dx, dy⟩, dv⟩ := d
    simp only at e1 e2 hdm
    subst e1 e2
    rw [same_row h hD hdm.1 hx']
  cases u2 with
  | nil => exact absurd rfl hu2
  | cons d u3 =>
    rw [hall d (by simp)]
    cases u3 with
    | nil => rfl
    | cons d' u4 =>
      have := su.2.1.2
      rw [List.pairwise_cons, hall d (by simp), ] at this
      have := this.1 d' (by simp)
      rw [hall d' (by simp)] at this
      exact (svLt_irrefl _ this).elim

/-! ### the moves -/

/-- `U` is `T` with `v` removed from box `b` and `w` added to box `c`. -/
def Moved (T U : Tab) (b c : Nat × Nat) (v w : Int) : Prop :=
  ∀ d z, z ∈ U.ent d ↔ (z ∈ T.ent d ∧ ¬ (d = b ∧ z = v)) ∨ (d = c ∧ z = w)

/-- `i` becomes `i + 1` in one box. -/
theorem semi_A (h : Semi false n D T) (hD : Convex D) (hn : i + 1 ≤ n) (hi : i ∈ T.ent (x, y)) (hcol : ∀ x', i + 1 ∉ T.ent (x', y))
    (hr : i ∉ T.ent (x, y + 1)) (hU : Base false D U) (hm : Moved T U (x, y) (x, y) i (i + 1)) :
    Semi false n D U ∧ (∀ x', i ∉ U.ent (x', y)) ∧ (∀ y', y = y' + 1 → i + 1 ∉ U.ent (x, y')) := by
  have hb := h.bd _ _ hi
  refine ⟨⟨hU, ?_, ?_, ?_⟩, ?_, ?_⟩
  · intro b v hv
    rcases (hm b v).1 hv with ⟨hv, _⟩ | ⟨_, rfl⟩
    · exact h.bd b v hv
    · omega
  · intro k l v hv w hw
    rcases (hm _ _).1 hv with ⟨hv, _⟩ | ⟨e, rfl⟩
    · rcases (hm _ _).1 hw with ⟨hw, _⟩ | ⟨e, rfl⟩
      · exact h.row _ _ _ hv _ hw
      · rw [← e] at hi
        have := h.row _ _ _ hv _ hi
        omega
    · cases e
      rcases (hm _ _).1 hw with ⟨hw, _⟩ | ⟨e, _⟩
      · have := h.row _ _ _ hi _ hw
        have : w ≠ i := by rintro rfl; exact hr hw
        omega
      · simp at e
  · intro k l v hv w hw
    rcases (hm _ _).1 hv with ⟨hv, _⟩ | ⟨e, rfl⟩
    · rcases (hm _ _).1 hw with ⟨hw, _⟩ | ⟨e, rfl⟩
      · exact h.col _ _ _ hv _ hw
      · rw [← e] at hi
        have := h.col _ _ _ hv _ hi
        omega
    · cases e
      rcases (hm _ _).1 hw with ⟨hw, _⟩ | ⟨e, _⟩
      · have := h.col _ _ _ hi _ hw
        have : w ≠ i + 1 := by rintro rfl; exact hcol _ hw
        omega
      · simp at e
  · intro x' hx'
    rcases (hm _ _).1 hx' with ⟨hx, hne⟩ | ⟨_, e⟩
    · have := same_row h hD hx hi
      subst this
      exact hne ⟨rfl, rfl⟩
    · omega
  · rintro y' rfl hx'
    rcases (hm _ _).1 hx' with ⟨hx, _⟩ | ⟨e, _⟩
    · have := h.row _ _ _ hx _ hi; omega
    · simp at e

/-- `i + 1` becomes `i` in one box. -/
theorem semi_A' (h : Semi false n D T) (hD : Convex D) (hn : 1 ≤ i) (hi : i + 1 ∈ T.ent (x, y)) (hcol : ∀ x', i ∉ T.ent (x', y))
    (hr : ∀ y', y = y' + 1 → i + 1 ∉ T.ent (x, y')) (hU : Base false D U) (hm : Moved T U (x, y) (x, y) (i + 1) i) :
    Semi false n D U ∧ (∀ x', i + 1 ∉ U.ent (x', y)) ∧ i ∉ U.ent (x, y + 1) := by
  have hb := h.bd _ _ hi
  refine ⟨⟨hU, ?_, ?_, ?_⟩, ?_, ?_⟩
  · intro b v hv
    rcases (hm b v).1 hv with ⟨hv, _⟩ | ⟨_, rfl⟩
    · exact h.bd b v hv
    · omega
  · intro k l v hv w hw
    rcases (hm _ _).1 hv with ⟨hv, _⟩ | ⟨e, rfl⟩
    · rcases (hm _ _).1 hw with ⟨hw, _⟩ | ⟨e, rfl⟩
      · exact h.row _ _ _ hv _ hw
      · cases e
        have := h.row _ _ _ hv _ hi
        have : v ≠ w + 1 := by rintro rfl; exact hr l rfl hv
        omega
    · cases e
      rcases (hm _ _).1 hw with ⟨hw, _⟩ | ⟨e, _⟩
      · have := h.row _ _ _ hi _ hw
        omega
      · simp at e
  · intro k l v hv w hw
    rcases (hm _ _).1 hv with ⟨hv, _⟩ | ⟨e, rfl⟩
    · rcases (hm _ _).1 hw with ⟨hw, _⟩ | ⟨e, rfl⟩
      · exact h.col _ _ _ hv _ hw
      · cases e
        have := h.col _ _ _ hv _ hi
        have : v ≠ w := by rintro rfl; exact hcol _ hv
        omega
    · cases e
      rcases (hm _ _).1 hw with ⟨hw, _⟩ | ⟨e, _⟩
      · have := h.col _ _ _ hi _ hw
        omega
      · simp at e
  · intro x' hx'
    rcases (hm _ _).1 hx' with ⟨hx, hne⟩ | ⟨_, e⟩
    · have := same_row h hD hx hi
      subst this
      exact hne ⟨rfl, rfl⟩
    · omega
  · intro hx'
    rcases (hm _ _).1 hx' with ⟨hx, _⟩ | ⟨e, _⟩
    · have := h.row _ _ _ hi _ hx; omega
    · simp at e

/-- `i` leaves the box `(x, y + 1)` and `i + 1` enters the box `(x, y)`. -/
theorem semi_B (h : Semi false n D T) (hD : Convex D) (hi : i ∈ T.ent (x, y)) (hcol : ∀ x', i + 1 ∉ T.ent (x', y))
    (hr : i ∈ T.ent (x, y + 1)) (hr' : i + 1 ∈ T.ent (x, y + 1)) (hU : Base false D U)
    (hm : Moved T U (x, y + 1) (x, y) i (i + 1)) :
    Semi false n D U ∧ (∀ x', i ∉ U.ent (x', y + 1)) := by
  have hb := h.bd _ _ hr'
  refine ⟨⟨hU, ?_, ?_, ?_⟩, ?_⟩
  · intro b v hv
    rcases (hm b v).1 hv with ⟨hv, _⟩ | ⟨_, rfl⟩
    · exact h.bd b v hv
    · omega
  · intro k l v hv w hw
    rcases (hm _ _).1 hv with ⟨hv, _⟩ | ⟨e, rfl⟩
    · rcases (hm _ _).1 hw with ⟨hw, _⟩ | ⟨e, rfl⟩
      · exact h.row _ _ _ hv _ hw
      · rw [← e] at hi
        have := h.row _ _ _ hv _ hi
        omega
    · cases e
      rcases (hm _ _).1 hw with ⟨hw, hne⟩ | ⟨e, _⟩
      · have := h.row _ _ _ hi _ hw
        have : w ≠ i := by rintro rfl; exact hne ⟨rfl, rfl⟩
        omega
      · simp at e
  · intro k l v hv w hw
    rcases (hm _ _).1 hv with ⟨hv, _⟩ | ⟨e, rfl⟩
    · rcases (hm _ _).1 hw with ⟨hw, _⟩ | ⟨e, rfl⟩
      · exact h.col _ _ _ hv _ hw
      · rw [← e] at hi
        have := h.col _ _ _ hv _ hi
        omega
    · cases e
      rcases (hm _ _).1 hw with ⟨hw, _⟩ | ⟨e, _⟩
      · have := h.col _ _ _ hi _ hw
        have : w ≠ i + 1 := by rintro rfl; exact hcol _ hw
        omega
      · simp at e
  · intro x' hx'
    rcases (hm _ _).1 hx' with ⟨hx, hne⟩ | ⟨_, e⟩
    · have := same_row h hD hx hr
      subst this
      exact hne ⟨rfl, rfl⟩
    · omega

/-- `i + 1` leaves the box `(x, y)` and `i` enters the box `(x, y + 1)`. -/
theorem semi_B' (h : Semi false n D T) (hD : Convex D) (hi : i + 1 ∈ T.ent (x, y + 1)) (hcol : ∀ x', i ∉ T.ent (x', y + 1))
    (hr : i ∈ T.ent (x, y)) (hr' : i + 1 ∈ T.ent (x, y)) (hU : Base false D U)
    (hm : Moved T U (x, y) (x, y + 1) (i + 1) i) :
    Semi false n D U ∧ (∀ x', i + 1 ∉ U.ent (x', y)) := by
  have hb := h.bd _ _ hr
  refine ⟨⟨hU, ?_, ?_, ?_⟩, ?_⟩
  · intro b v hv
    rcases (hm b v).1 hv with ⟨hv, _⟩ | ⟨_, rfl⟩
    · exact h.bd b v hv
    · omega
  · intro k l v hv w hw
    rcases (hm _ _).1 hv with ⟨hv, hne⟩ | ⟨e, rfl⟩
    · rcases (hm _ _).1 hw with ⟨hw, _⟩ | ⟨e, rfl⟩
      · exact h.row _ _ _ hv _ hw
      · cases e
        have := h.row _ _ _ hv _ hi
        have : v ≠ w + 1 := by rintro rfl; exact hne ⟨rfl, rfl⟩
        omega
    · cases e
      rcases (hm _ _).1 hw with ⟨hw, _⟩ | ⟨e, _⟩
      · have := h.row _ _ _ hi _ hw
        omega
      · simp at e
  · intro k l v hv w hw
    rcases (hm _ _).1 hv with ⟨hv, _⟩ | ⟨e, rfl⟩
    · rcases (hm _ _).1 hw with ⟨hw, _⟩ | ⟨e, rfl⟩
      · exact h.col _ _ _ hv _ hw
      · cases e
        have := h.col _ _ _ hv _ hi
        have : v ≠ w := by rintro rfl; exact hcol _ hv
        omega
    · cases e
      rcases (hm _ _).1 hw with ⟨hw, _⟩ | ⟨e, _⟩
      · have := h.col _ _ _ hi _ hw
        omega
      · simp at e
  · intro x' hx'
    rcases (hm _ _).1 hx' with ⟨hx, hne⟩ | ⟨_, e⟩
    · have := same_row h hD hx hr'
      subst this
      exact hne ⟨rfl, rfl⟩
    · omega

/-! ### the entries after a move -/

theorem svLt_mid {u v : List Ent} {p : Ent} (h : (u ++ p :: v).Pairwise svLt) :
    (∀ q ∈ u, svLt q p) ∧ (∀ q ∈ v, svLt p q) ∧ u.Pairwise svLt ∧ v.Pairwise svLt ∧ ∀ q ∈ u, ∀ r ∈ v, svLt q r := by
  rw [List.pairwise_append, List.pairwise_cons] at h
  exact ⟨fun q hq => h.2.2 q hq p (by simp), h.2.1.1, h.1, h.2.1.2, fun q hq r hr => h.2.2 q hq r (by simp [hr])⟩

/-- The letters at `a` (column `y` has only this letter) are replaced by other letters of the same column. -/
theorem entries_A {a b : Int} (h : Semi false n D T) (hD : Convex D) (hab : (a = i ∧ b = i + 1) ∨ (a = i + 1 ∧ b = i))
    (hcol : ∀ x', b ∉ T.ent (x', y)) {u v : List Ent}
    (hs : svEntries i T = u ++ ((x, y), a) :: v) (hU : Base false D U) (hm : Moved T U (x, y) (x, y) a b) :
    svEntries i U = u ++ ((x, y), b) :: v := by
  have hsort := svEntries_sorted h.toBase i
  have ha : a ∈ T.ent (x, y) := (mem_svEntries (i := i) (p := ((x, y), a)) |>.1 (by rw [hs]; simp)).1
  have hcoln : ∀ q ∈ svEntries i T, q ≠ ((x, y), a) → q.1.2 ≠ y := by
    rintro ⟨⟨qx, qy⟩, qv⟩ hq hne rfl
    rw [mem_svEntries] at hq
    simp only at hq
    have : qv = a ∨ qv = b := by omega
    rcases this with rfl | rfl
    · exact hne (by rw [same_row h hD hq.1 ha])
    · exact hcol _ hq.1
  have hmem := fun q => mem_svEntries (i := i) (T := T) (p := q)
  rw [hs] at hsort hcoln hmem
  obtain ⟨s1, s2, s3, s4, s5⟩ := svLt_mid hsort
  have k1 : ∀ q ∈ u, q.1.2 < y := by
    intro q hq
    have h1 := s1 q hq
    have h2 := hcoln q (by simp [hq]) (by rintro rfl; exact svLt_irrefl _ h1)
    simp only [svLt] at h1
    omega
  have k2 : ∀ q ∈ v, y < q.1.2 := by
    intro q hq
    have h1 := s2 q hq
    have h2 := hcoln q (by simp [hq]) (by rintro rfl; exact svLt_irrefl _ h1)
    simp only [svLt] at h1
    omega
  apply svEntries_eq hU
  · rw [List.pairwise_append, List.pairwise_cons]
    refine ⟨s3, ⟨fun q hq => Or.inl (k2 q hq), s4⟩, ?_⟩
    intro q hq r hr
    rcases List.mem_cons.1 hr with rfl | hr
    · exact Or.inl (k1 q hq)
    · exact s5 q hq r hr
  · intro q
    rw [hm]
    have hq := hmem q
    rw [List.mem_append, List.mem_cons] at hq ⊢
    have d1 : q ∈ u → q ≠ ((x, y), a) := by rintro h rfl; exact svLt_irrefl _ (s1 _ h)
    have d2 : q ∈ v → q ≠ ((x, y), a) := by rintro h rfl; exact svLt_irrefl _ (s2 _ h)
    have e1 : q = ((x, y), a) ↔ q.1 = (x, y) ∧ q.2 = a := Prod.ext_iff
    have e2 : q = ((x, y), b) ↔ q.1 = (x, y) ∧ q.2 = b := Prod.ext_iff
    constructor
    · rintro (h1 | h1 | h1)
      · have := hq.1 (Or.inl h1)
        have hne := d1 h1
        rw [Ne, e1] at hne
        exact ⟨Or.inl ⟨this.1, hne⟩, this.2⟩
      · rw [e2] at h1
        exact ⟨Or.inr h1, by omega⟩
      · have := hq.1 (Or.inr (Or.inr h1))
        have hne := d2 h1
        rw [Ne, e1] at hne
        exact ⟨Or.inl ⟨this.1, hne⟩, this.2⟩
    · rintro ⟨h1 | h1, h2⟩
      · rcases hq.2 ⟨h1.1, h2⟩ with h3 | h3 | h3
        · exact Or.inl h3
        · exact absurd (e1.1 h3) h1.2
        · exact Or.inr (Or.inr h3)
      · exact Or.inr (Or.inl (e2.2 h1))

/-- The letters `i | i+1, i` of two neighbouring boxes become `i+1, i | i+1`. -/
theorem entries_B (h : Semi false n D T) (hcol : ∀ x', i + 1 ∉ T.ent (x', y)) {u v : List Ent}
    (hs : svEntries i T = u ++ ((x, y), i) :: ((x, y + 1), i + 1) :: ((x, y + 1), i) :: v) (hU : Base false D U)
    (hm : Moved T U (x, y + 1) (x, y) i (i + 1)) :
    svEntries i U = u ++ ((x, y), i + 1) :: ((x, y), i) :: ((x, y + 1), i + 1) :: v := by
  have hsort := svEntries_sorted h.toBase i
  have hmem := fun q => mem_svEntries (i := i) (T := T) (p := q)
  rw [hs] at hsort hmem
  rw [List.pairwise_append, List.pairwise_cons, List.pairwise_cons, List.pairwise_cons] at hsort
  obtain ⟨su, ⟨s1, s2, s3, sv⟩, suv⟩ := hsort
  have k : ∀ q ∈ u, svLt q ((x, y), i + 1) := by
    intro q hq
    have h1 := suv q hq ((x, y), i) (by simp)
    have h2 := (hmem q).1 (by simp [hq])
    have h3 : q ≠ ((x, y), i + 1) := by rintro rfl; exact hcol _ h2.1
    have h4 : ¬ (q.1.1 = x ∧ q.1.2 = y ∧ q.2 = i + 1) := by
      rintro ⟨a, b, c⟩; exact h3 (Prod.ext (Prod.ext a b) c)
    have h5 : ¬ (q.1.1 = x ∧ q.1.2 = y ∧ q.2 = i) := by
      rintro ⟨a, b, c⟩
      have : q = ((x, y), i) := Prod.ext (Prod.ext a b) c
      rw [this] at h1; exact svLt_irrefl _ h1
    simp only [svLt] at h1 ⊢
    omega
  have k2 : ∀ q ∈ v, svLt ((x, y + 1), i) q := s3
  apply svEntries_eq hU
  · rw [List.pairwise_append, List.pairwise_cons, List.pairwise_cons, List.pairwise_cons]
    refine ⟨su, ⟨?_, ?_, ?_, sv⟩, ?_⟩
    · intro q hq
      have e : svLt ((x, y), i + 1) ((x, y + 1), i) := by simp [svLt]
      rcases List.mem_cons.1 hq with rfl | hq
      · simp [svLt]
      · rcases List.mem_cons.1 hq with rfl | hq
        · simp [svLt]
        · exact svLt_trans e (k2 q hq)
    · intro q hq
      rcases List.mem_cons.1 hq with rfl | hq
      · simp [svLt]
      · exact s1 q (by simp [hq])
    · intro q hq
      exact s2 q (by simp [hq])
    · intro q hq r hr
      rcases List.mem_cons.1 hr with rfl | hr
      · exact k q hq
      · rcases List.mem_cons.1 hr with rfl | hr
        · exact suv q hq _ (by simp)
        · rcases List.mem_cons.1 hr with rfl | hr
          · exact suv q hq _ (by simp)
          · exact suv q hq _ (by simp [hr])
  · intro q
    rw [hm]
    have hq := hmem q
    simp only [List.mem_append, List.mem_cons] at hq ⊢
    have d1 : q ∈ u → q ≠ ((x, y + 1), i) := by rintro h rfl; exact svLt_irrefl _ (suv _ h _ (by simp))
    have d2 : q ∈ v → q ≠ ((x, y + 1), i) := by rintro h rfl; exact svLt_irrefl _ (s3 _ h)
    have e0 : q = ((x, y), i) ↔ q.1 = (x, y) ∧ q.2 = i := Prod.ext_iff
    have e1 : q = ((x, y + 1), i) ↔ q.1 = (x, y + 1) ∧ q.2 = i := Prod.ext_iff
    have e2 : q = ((x, y), i + 1) ↔ q.1 = (x, y) ∧ q.2 = i + 1 := Prod.ext_iff
    have e3 : q = ((x, y + 1), i + 1) ↔ q.1 = (x, y + 1) ∧ q.2 = i + 1 := Prod.ext_iff
    rw [← e1, ← e2]
    constructor
    · rintro (h1 | h1 | h1 | h1 | h1)
      · have := hq.1 (Or.inl h1)
        exact ⟨Or.inl ⟨this.1, d1 h1⟩, this.2⟩
      · exact ⟨Or.inr h1, by rw [e2] at h1; exact Or.inr h1.2⟩
      · have := hq.1 (Or.inr (Or.inl h1))
        exact ⟨Or.inl ⟨this.1, by rw [h1]; simp⟩, this.2⟩
      · have := hq.1 (Or.inr (Or.inr (Or.inl h1)))
        exact ⟨Or.inl ⟨this.1, by rw [h1]; simp⟩, this.2⟩
      · have := hq.1 (Or.inr (Or.inr (Or.inr (Or.inr h1))))
        exact ⟨Or.inl ⟨this.1, d2 h1⟩, this.2⟩
    · rintro ⟨h1 | h1, h2⟩
      · rcases hq.2 ⟨h1.1, h2⟩ with h3 | h3 | h3 | h3 | h3
        · exact Or.inl h3
        · exact Or.inr (Or.inr (Or.inl h3))
        · exact Or.inr (Or.inr (Or.inr (Or.inl h3)))
        · exact absurd h3 h1.2
        · exact Or.inr (Or.inr (Or.inr (Or.inr h3)))
      · exact Or.inr (Or.inl h1)

/-- The letters `i+1, i | i+1` of two neighbouring boxes become `i | i+1, i`. -/
theorem entries_B' (h : Semi false n D T) (hcol : ∀ x', i ∉ T.ent (x', y + 1)) {u v : List Ent}
    (hs : svEntries i T = u ++ ((x, y), i + 1) :: ((x, y), i) :: ((x, y + 1), i + 1) :: v) (hU : Base false D U)
    (hm : Moved T U (x, y) (x, y + 1) (i + 1) i) :
    svEntries i U = u ++ ((x, y), i) :: ((x, y + 1), i + 1) :: ((x, y + 1), i) :: v := by
  have hsort := svEntries_sorted h.toBase i
  have hmem := fun q => mem_svEntries (i := i) (T := T) (p := q)
  rw [hs] at hsort hmem
  rw [List.pairwise_append, List.pairwise_cons, List.pairwise_cons, List.pairwise_cons] at hsort
  obtain ⟨su, ⟨s1, s2, s3, sv⟩, suv⟩ := hsort
  have k : ∀ q ∈ v, svLt ((x, y + 1), i) q := by
    intro q hq
    have h1 := s3 q hq
    have h2 := (hmem q).1 (by simp [hq])
    have h3 : q ≠ ((x, y + 1), i) := by rintro rfl; exact hcol _ h2.1
    have h4 : ¬ (q.1.1 = x ∧ q.1.2 = y + 1 ∧ q.2 = i) := by
      rintro ⟨a, b, c⟩; exact h3 (Prod.ext (Prod.ext a b) c)
    have h5 : ¬ (q.1.1 = x ∧ q.1.2 = y + 1 ∧ q.2 = i + 1) := by
      rintro ⟨a, b, c⟩
      have : q = ((x, y + 1), i + 1) := Prod.ext (Prod.ext a b) c
      rw [this] at h1; exact svLt_irrefl _ h1
    simp only [svLt] at h1 ⊢
    omega
  apply svEntries_eq hU
  · rw [List.pairwise_append, List.pairwise_cons, List.pairwise_cons, List.pairwise_cons]
    refine ⟨su, ⟨?_, ?_, ?_, sv⟩, ?_⟩
    · intro q hq
      rcases List.mem_cons.1 hq with rfl | hq
      · simp [svLt]
      · rcases List.mem_cons.1 hq with rfl | hq
        · simp [svLt]
        · exact s2 q (by simp [hq])
    · intro q hq
      rcases List.mem_cons.1 hq with rfl | hq
      · simp [svLt]
      · exact s3 q hq
    · exact k
    · intro q hq r hr
      rcases List.mem_cons.1 hr with rfl | hr
      · exact suv q hq _ (by simp)
      · rcases List.mem_cons.1 hr with rfl | hr
        · exact suv q hq _ (by simp)
        · rcases List.mem_cons.1 hr with rfl | hr
          · exact svLt_trans (suv q hq ((x, y), i + 1) (by simp)) (by simp [svLt])
          · exact suv q hq _ (by simp [hr])
  · intro q
    rw [hm]
    have hq := hmem q
    simp only [List.mem_append, List.mem_cons] at hq ⊢
    have d1 : q ∈ u → q ≠ ((x, y), i + 1) := by rintro h rfl; exact svLt_irrefl _ (suv _ h _ (by simp))
    have d2 : q ∈ v → q ≠ ((x, y), i + 1) := by rintro h rfl; exact svLt_irrefl _ (s1 _ (by simp [h]))
    have e1 : q = ((x, y + 1), i) ↔ q.1 = (x, y + 1) ∧ q.2 = i := Prod.ext_iff
    have e2 : q = ((x, y), i + 1) ↔ q.1 = (x, y) ∧ q.2 = i + 1 := Prod.ext_iff
    rw [← e1, ← e2]
    constructor
    · rintro (h1 | h1 | h1 | h1 | h1)
      · have := hq.1 (Or.inl h1)
        exact ⟨Or.inl ⟨this.1, d1 h1⟩, this.2⟩
      · have := hq.1 (Or.inr (Or.inr (Or.inl h1)))
        exact ⟨Or.inl ⟨this.1, by rw [h1]; simp⟩, this.2⟩
      · have := hq.1 (Or.inr (Or.inr (Or.inr (Or.inl h1))))
        exact ⟨Or.inl ⟨this.1, by rw [h1]; simp⟩, this.2⟩
      · exact ⟨Or.inr h1, by rw [e1] at h1; exact Or.inl h1.2⟩
      · have := hq.1 (Or.inr (Or.inr (Or.inr (Or.inr h1))))
        exact ⟨Or.inl ⟨this.1, d2 h1⟩, this.2⟩
    · rintro ⟨h1 | h1, h2⟩
      · rcases hq.2 ⟨h1.1, h2⟩ with h3 | h3 | h3 | h3 | h3
        · exact Or.inl h3
        · exact absurd h3 h1.2
        · exact Or.inr (Or.inl h3)
        · exact Or.inr (Or.inr (Or.inl h3))
        · exact Or.inr (Or.inr (Or.inr (Or.inr h3)))
      · exact Or.inr (Or.inr (Or.inr (Or.inl h1)))

/-! ### the operators -/

/-- Positive boxes. -/
def Pos (D : Set (Nat × Nat)) : Prop := ∀ b ∈ D, 1 ≤ b.1 ∧ 1 ≤ b.2

/-- What one step of `f` does (`T` is before, `U` after the step); `k` is `φ(T)`, `l` is `ε(T)`. -/
theorem fSet?_some (h : Semi false n D T) (hD : Convex D) (hpos : Pos D) (hn : i + 1 ≤ n) (hne : (pq i (svEntries i T)).1 ≠ []) :
    ∃ U, fSet? i T = some (some U) ∧ Semi false n D U ∧ eSet? i U = some (some T) ∧
      (pq i (svEntries i T)).1.length = (pq i (svEntries i U)).1.length + 1 ∧
      (pq i (svEntries i U)).2.length = (pq i (svEntries i T)).2.length + 1 ∧
      ∃ b c, i ∈ T.ent b ∧ c ∈ D ∧ i + 1 ∉ T.ent c ∧ Moved T U b c i (i + 1) := by
  rw [fSet?_eq]
  rcases hPQ : pq i (svEntries i T) with ⟨_ | ⟨⟨⟨x, y⟩, a⟩, P⟩, Q⟩
  · rw [hPQ] at hne; exact absurd rfl hne
  obtain ⟨u, v, hs, hu, hv, ha⟩ := decomp_I i _ _ _ _ hPQ
  have ha' := two_svEntries i T ((x, y), a) (by rw [hs]; simp)
  simp only at ha ha'
  obtain rfl : a = i := by omega
  have hi : a ∈ T.ent (x, y) := (mem_svEntries (i := a) (p := ((x, y), a)) |>.1 (by rw [hs]; simp)).1
  have hxy := h.toBase.mem_D hi
  have hcol := f_col h hD hs hu
  simp only
  by_cases hr : a ∈ T.ent (x, y + 1)
  · obtain ⟨hr', v', rfl⟩ := f_next h hD hs hu hv hr
    obtain ⟨U0, e1, hB, hm⟩ := move_spec h.toBase hr hxy (hcol x) (Or.inr ⟨a + 1, hr', by omega⟩)
    rw [if_pos hr, e1]
    obtain ⟨hS, hc'⟩ := semi_B h hD hi hcol hr hr' hB hm
    have hent := entries_B h hcol hs hB hm
    have hv' : pq a v' = ([], Q) := by
      rw [pq, List.foldl_cons, List.foldl_cons, fold_pair'] at hv
      exact hv
    have hpq : pq a (svEntries a (U0.add (x, y) (a + 1))) = (P, Q ++ [((x, y + 1), a + 1)]) := by
      rw [hent, pq_append, hu, List.foldl_cons, List.foldl_cons, fold_pair', List.foldl_cons, step_J rfl,
        fold_of_pq_nil a v' _ hv']
    refine ⟨_, rfl, hS, ?_, by rw [hpq]; simp, by rw [hpq]; simp, (x, y + 1), (x, y), hr, hxy, hcol x, hm⟩
    rw [eSet?_eq, hpq]
    simp only [List.getLast?_append, List.getLast?_singleton, Option.some_or, Nat.add_sub_cancel]
    have m1 : a + 1 ∈ (U0.add (x, y) (a + 1)).ent (x, y) := (hm _ _).2 (Or.inr ⟨rfl, rfl⟩)
    have m2 : a ∈ (U0.add (x, y) (a + 1)).ent (x, y) := (hm _ _).2 (Or.inl ⟨hi, by simp⟩)
    rw [if_pos m1]
    obtain ⟨V0, e2, hB2, hm2⟩ := move_spec hB m1 (h.toBase.mem_D hr) (hc' x) (Or.inr ⟨a, m2, by omega⟩)
    rw [e2]
    have hT : V0.add (x, y + 1) a = T := by
      apply hB2.ext_mem h.toBase
      intro b z
      rw [hm2, hm]
      constructor
      · rintro (⟨h1 | h1, h2⟩ | ⟨rfl, rfl⟩)
        · exact h1.1
        · exact absurd h1 h2
        · exact hr
      · intro hz
        by_cases hb : b = (x, y + 1) ∧ z = a
        · exact Or.inr hb
        · refine Or.inl ⟨Or.inl ⟨hz, hb⟩, ?_⟩
          rintro ⟨rfl, rfl⟩
          exact hcol x hz
    rw [← hT]
    rfl
  · obtain ⟨U0, e1, hB, hm⟩ := move_spec h.toBase hi hxy (hcol x) (Or.inl rfl)
    rw [if_neg hr, e1]
    obtain ⟨hS, hc', hp'⟩ := semi_A h hD hn hi hcol hr hB hm
    have hent := entries_A h hD (Or.inl ⟨rfl, rfl⟩) hcol hs hB hm
    have hpq : pq a (svEntries a (U0.add (x, y) (a + 1))) = (P, Q ++ [((x, y), a + 1)]) := by
      rw [hent, pq_append, hu, List.foldl_cons, step_J rfl, fold_of_pq_nil a v _ hv]
    refine ⟨_, rfl, hS, ?_, by rw [hpq]; simp, by rw [hpq]; simp, (x, y), (x, y), hi, hxy, hcol x, hm⟩
    rw [eSet?_eq, hpq]
    simp only [List.getLast?_append, List.getLast?_singleton, Option.some_or]
    have hy := (hpos _ hxy).2
    simp only at hy
    rw [if_neg (hp' (y - 1) (by omega))]
    have m1 : a + 1 ∈ (U0.add (x, y) (a + 1)).ent (x, y) := (hm _ _).2 (Or.inr ⟨rfl, rfl⟩)
    obtain ⟨V0, e2, hB2, hm2⟩ := move_spec hB m1 hxy (hc' x) (Or.inl rfl)
    rw [e2]
    have hT : V0.add (x, y) a = T := by
      apply hB2.ext_mem h.toBase
      intro b z
      rw [hm2, hm]
      constructor
      · rintro (⟨h1 | h1, h2⟩ | ⟨rfl, rfl⟩)
        · exact h1.1
        · exact absurd h1 h2
        · exact hi
      · intro hz
        by_cases hb : b = (x, y) ∧ z = a
        · exact Or.inr hb
        · refine Or.inl ⟨Or.inl ⟨hz, hb⟩, ?_⟩
          rintro ⟨rfl, rfl⟩
          exact hcol x hz
    rw [← hT]
    rfl

/-- What one step of `e` does. -/
theorem eSet?_some (h : Semi false n D T) (hD : Convex D) (hpos : Pos D) (hn : 1 ≤ i) (hne : (pq i (svEntries i T)).2 ≠ []) :
    ∃ U, eSet? i T = some (some U) ∧ Semi false n D U ∧ fSet? i U = some (some T) ∧
      (pq i (svEntries i T)).2.length = (pq i (svEntries i U)).2.length + 1 ∧
      (pq i (svEntries i U)).1.length = (pq i (svEntries i T)).1.length + 1 ∧
      ∃ b c, i + 1 ∈ T.ent b ∧ c ∈ D ∧ i ∉ T.ent c ∧ Moved T U b c (i + 1) i := by
  rw [eSet?_eq]
  rcases hPQ : pq i (svEntries i T) with ⟨P, Q'⟩
  rw [hPQ] at hne
  rcases List.eq_nil_or_concat Q' with rfl | ⟨Q, ⟨⟨x, y⟩, a⟩, rfl⟩
  · exact absurd rfl hne
  rw [List.concat_eq_append] at hPQ
  obtain ⟨u, v, hs, hu, hv, ha⟩ := decomp_J i _ _ _ _ hPQ
  simp only at ha
  subst ha
  have hi : i + 1 ∈ T.ent (x, y) := (mem_svEntries (i := i) (p := ((x, y), i + 1)) |>.1 (by rw [hs]; simp)).1
  have hxy := h.toBase.mem_D hi
  have hcol := e_col h hD hs hv
  simp only [List.concat_eq_append, List.getLast?_append, List.getLast?_singleton, Option.some_or]
  have hy := (hpos _ hxy).2
  simp only at hy
  obtain ⟨y, rfl⟩ : ∃ y0, y = y0 + 1 := ⟨y - 1, by omega⟩
  rw [Nat.add_sub_cancel]
  by_cases hr : i + 1 ∈ T.ent (x, y)
  · obtain ⟨hr', u', rfl⟩ := e_prev h hD hs hu hv hr
    obtain ⟨U0, e1, hB, hm⟩ := move_spec h.toBase hr hxy (hcol x) (Or.inr ⟨i, hr', by omega⟩)
    rw [if_pos hr, e1]
    obtain ⟨hS, hc'⟩ := semi_B' h hD hi hcol hr' hr hB hm
    have hent := entries_B' (u := u') (v := v) h hcol (by rw [hs]; simp) hB hm
    have hu' : pq i u' = (P, []) := by
      rw [pq_append, List.foldl_cons, List.foldl_cons, fold_pair'] at hu
      exact hu
    have hpq : pq i (svEntries i (U0.add (x, y + 1) i)) = (((x, y), i) :: P, Q) := by
      rw [hent, pq_append, hu', List.foldl_cons, step_I_nil (by simp), List.foldl_cons, List.foldl_cons, fold_pair',
        fold_of_pq_nil i v _ hv, List.append_nil]
    refine ⟨_, rfl, hS, ?_, by rw [hpq]; simp, by rw [hpq]; simp, (x, y), (x, y + 1), hr, hxy, hcol x, hm⟩
    rw [fSet?_eq, hpq]
    simp only
    have m1 : i ∈ (U0.add (x, y + 1) i).ent (x, y + 1) := (hm _ _).2 (Or.inr ⟨rfl, rfl⟩)
    have m2 : i + 1 ∈ (U0.add (x, y + 1) i).ent (x, y + 1) := (hm _ _).2 (Or.inl ⟨hi, by simp⟩)
    rw [if_pos m1]
    obtain ⟨V0, e2, hB2, hm2⟩ := move_spec hB m1 (h.toBase.mem_D hr) (hc' x) (Or.inr ⟨i + 1, m2, by omega⟩)
    rw [e2]
    have hT : V0.add (x, y) (i + 1) = T := by
      apply hB2.ext_mem h.toBase
      intro b z
      rw [hm2, hm]
      constructor
      · rintro (⟨h1 | h1, h2⟩ | ⟨rfl, rfl⟩)
        · exact h1.1
        · exact absurd h1 h2
        · exact hr
      · intro hz
        by_cases hb : b = (x, y) ∧ z = i + 1
        · exact Or.inr hb
        · refine Or.inl ⟨Or.inl ⟨hz, hb⟩, ?_⟩
          rintro ⟨rfl, rfl⟩
          exact hcol x hz
    rw [← hT]
    rfl
  · obtain ⟨U0, e1, hB, hm⟩ := move_spec h.toBase hi hxy (hcol x) (Or.inl rfl)
    rw [if_neg hr, e1]
    obtain ⟨hS, hc', hp'⟩ := semi_A' h hD hn hi hcol (by
      intro y' hy'
      have : y' = y := by omega
      subst this
      exact hr) hB hm
    have hent := entries_A h hD (Or.inr ⟨rfl, rfl⟩) hcol hs hB hm
    have hpq : pq i (svEntries i (U0.add (x, y + 1) i)) = (((x, y + 1), i) :: P, Q) := by
      rw [hent, pq_append, hu, List.foldl_cons, step_I_nil (by simp), fold_of_pq_nil i v _ hv, List.append_nil]
    refine ⟨_, rfl, hS, ?_, by rw [hpq]; simp, by rw [hpq]; simp, (x, y + 1), (x, y + 1), hi, hxy, hcol x, hm⟩
    rw [fSet?_eq, hpq]
    simp only
    rw [if_neg hp']
    have m1 : i ∈ (U0.add (x, y + 1) i).ent (x, y + 1) := (hm _ _).2 (Or.inr ⟨rfl, rfl⟩)
    obtain ⟨V0, e2, hB2, hm2⟩ := move_spec hB m1 hxy (hc' x) (Or.inl rfl)
    rw [e2]
    have hT : V0.add (x, y + 1) (i + 1) = T := by
      apply hB2.ext_mem h.toBase
      intro b z
      rw [hm2, hm]
      constructor
      · rintro (⟨h1 | h1, h2⟩ | ⟨rfl, rfl⟩)
        · exact h1.1
        · exact absurd h1 h2
        · exact hi
      · intro hz
        by_cases hb : b = (x, y + 1) ∧ z = i + 1
        · exact Or.inr hb
        · refine Or.inl ⟨Or.inl ⟨hz, hb⟩, ?_⟩
          rintro ⟨rfl, rfl⟩
          exact hcol x hz
    rw [← hT]
    rfl

end Verif.Tab
