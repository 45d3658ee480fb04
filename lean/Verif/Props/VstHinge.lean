import Verif.Model.VstHinge
import Verif.Props.VstGroups

/-! # C125: hinges of valued-set tableaux -/

attribute [-simp] List.getD_eq_getElem?_getD

namespace Verif.Vst

open Symm Tableaux Verif.Part Partition

/-- The boxes `(x, x)`, `(x, x + 1)`, `(x + 1, x + 1)` contain letters `index`, `index + 1`, primed or not. -/
def HingeAt (T : Tab) (index : Int) (x : Nat) : Prop :=
  ∀ b ∈ [(x, x), (x, x + 1), (x + 1, x + 1)], ∃ v, T.get? b = some [v] ∧ (|v| = index ∨ |v| = index + 1)

theorem inArgs_iff {T : Tab} {index : Int} (hi : 0 < index) (b : Nat × Nat) :
    inArgs T index b = true ↔ ∃ v, T.get? b = some [v] ∧ (|v| = index ∨ |v| = index + 1) := by
  unfold inArgs
  cases he : T.entry b with
  | none =>
    simp only [Bool.false_eq_true, false_iff]
    rintro ⟨v, hv, _⟩
    rw [entry_some.2 hv] at he
    cases he
  | some v =>
    have hv := entry_some.1 he
    simp only [decide_eq_true_eq, List.mem_cons, List.not_mem_nil, or_false]
    constructor
    · intro h
      refine ⟨v, hv, ?_⟩
      rcases abs_cases v with ⟨h1, _⟩ | ⟨h1, _⟩ <;> rw [h1] <;> omega
    · rintro ⟨w, hw, h⟩
      rw [hv, Option.some.injEq, List.cons.injEq] at hw
      obtain ⟨rfl, _⟩ := hw
      rcases abs_cases v with ⟨h1, _⟩ | ⟨h1, _⟩ <;> rw [h1] at h <;> omega

theorem hinge_mem {T : Tab} {index : Int} (hi : 0 < index) (x : Nat) :
    x ∈ ((T.items.map Prod.fst).filter (fun b => decide (b.1 = b.2) && inArgs T index b && inArgs T index (b.1, b.2 + 1) &&
      inArgs T index (b.1 + 1, b.2 + 1))).map Prod.fst ↔ HingeAt T index x := by
  have hH : HingeAt T index x ↔ inArgs T index (x, x) = true ∧ inArgs T index (x, x + 1) = true ∧ inArgs T index (x + 1, x + 1) = true := by
    rw [inArgs_iff hi, inArgs_iff hi, inArgs_iff hi]
    unfold HingeAt
    simp only [List.mem_cons, List.not_mem_nil, or_false, forall_eq_or_imp, forall_eq]
  rw [hH, List.mem_map]
  constructor
  · rintro ⟨b, hb, rfl⟩
    rw [List.mem_filter, Bool.and_eq_true, Bool.and_eq_true, Bool.and_eq_true, decide_eq_true_eq] at hb
    obtain ⟨_, ⟨⟨h1, h2⟩, h3⟩, h4⟩ := hb
    obtain ⟨i, j⟩ := b
    dsimp only at h1 h2 h3 h4 ⊢
    subst h1
    exact ⟨h2, h3, h4⟩
  · rintro ⟨h1, h2, h3⟩
    refine ⟨(x, x), List.mem_filter.2 ⟨?_, ?_⟩, rfl⟩
    · obtain ⟨v, hv, _⟩ := (inArgs_iff hi _).1 h1
      exact List.mem_map.2 ⟨((x, x), [v]), Tab.get?_eq_some.1 hv, rfl⟩
    · dsimp only
      rw [h1, h2, h3]
      simp

theorem diag_closed {mu nu : List Nat} (hm : IsStrict mu) (hn : IsStrict nu) {x y : Nat} (hx : (x, x) ∈ ShiftedDiagram mu \ ShiftedDiagram nu)
    (hxy : x ≤ y) (hy : (y + 1, y + 1) ∈ ShiftedDiagram mu \ ShiftedDiagram nu) :
    (y, y) ∈ ShiftedDiagram mu \ ShiftedDiagram nu ∧ (y, y + 1) ∈ ShiftedDiagram mu \ ShiftedDiagram nu := by
  have hx1 : 1 ≤ x := hx.1.1
  obtain ⟨_, _, a, ha, _⟩ := hy.1
  dsimp only at ha
  rw [Nat.add_sub_cancel] at ha
  obtain ⟨hlt, ha⟩ := List.getElem?_eq_some_iff.1 ha
  have ha0 : 0 < a := hm.2 a (ha ▸ List.getElem_mem hlt)
  have hgt : mu[y - 1]'(by omega) > mu[y] := List.pairwise_iff_getElem.1 hm.1 (y - 1) y (by omega) hlt (by omega)
  have hmem : ∀ j, j = y ∨ j = y + 1 → (y, j) ∈ ShiftedDiagram mu := by
    intro j hj
    refine ⟨by dsimp only; omega, by dsimp only; omega, mu[y - 1]'(by omega), ?_, ?_⟩
    · exact List.getElem?_eq_getElem _
    · dsimp only; omega
  have hnot : ∀ j, (y, j) ∉ ShiftedDiagram nu := by
    rintro j ⟨_, _, c, hc, _⟩
    dsimp only at hc
    obtain ⟨hlt', _⟩ := List.getElem?_eq_some_iff.1 hc
    apply hx.2
    refine ⟨hx1, le_refl _, nu[x - 1]'(by omega), List.getElem?_eq_getElem _, ?_⟩
    have := hn.2 (nu[x - 1]'(by omega)) (List.getElem_mem _)
    dsimp only
    omega
  exact ⟨⟨hmem y (Or.inl rfl), hnot y⟩, ⟨hmem (y + 1) (Or.inr rfl), hnot (y + 1)⟩⟩

/-- The absolute values on the diagonal increase strictly. -/
theorem diag_increasing {mu nu : List Nat} (hm : IsStrict mu) (hn : IsStrict nu) {T : Tab} (hp : Plain T)
    (hdom : ∀ b, (T.get? b).isSome ↔ b ∈ ShiftedDiagram mu \ ShiftedDiagram nu) (hs : isSemistandardV T = some true) {x : Nat} {v : Int}
    (hv : T.get? (x, x) = some [v]) : ∀ (k : Nat) (w : Int), T.get? (x + k, x + k) = some [w] → |v| + k ≤ |w| := by
  obtain ⟨c, hc1, hc2⟩ := C118_semistandard hp
  rw [hs, Option.some.injEq] at hc1
  obtain ⟨hr, hcol⟩ := hc2.1 hc1.symm
  have hx := (hdom (x, x)).1 (by rw [hv]; rfl)
  intro k
  induction k with
  | zero =>
    intro w hw
    rw [Nat.add_zero, hv, Option.some.injEq, List.cons.injEq] at hw
    rw [hw.1]
    simp
  | succ k ih =>
    intro w hw
    rw [← Nat.add_assoc] at hw
    obtain ⟨h1, h2⟩ := diag_closed hm hn hx (Nat.le_add_right x k) ((hdom _).1 (by rw [hw]; rfl))
    obtain ⟨s, hs1⟩ := Option.isSome_iff_exists.1 ((hdom _).2 h1)
    obtain ⟨t, ht1⟩ := Option.isSome_iff_exists.1 ((hdom _).2 h2)
    obtain ⟨a, rfl, ha⟩ := hp.single _ _ hs1
    obtain ⟨b, rfl, hb⟩ := hp.single _ _ ht1
    have e1 := ih a hs1
    have e2 := hr _ _ _ _ hs1 ht1
    have e3 := hcol _ _ _ _ ht1 hw
    have : |a| < |w| := by
      rcases e2 with (h | ⟨h, h'⟩) | ⟨rfl, h⟩
      · rcases e3 with (g | ⟨g, _⟩) | ⟨rfl, _⟩ <;> omega
      · rcases e3 with (g | ⟨g, g'⟩) | ⟨rfl, g⟩
        · omega
        · exfalso
          rcases abs_cases a with ⟨k1, _⟩ | ⟨k1, _⟩ <;> rcases abs_cases b with ⟨k2, _⟩ | ⟨k2, _⟩ <;>
            rcases abs_cases w with ⟨k3, _⟩ | ⟨k3, _⟩ <;> omega
        · exfalso
          rcases abs_cases a with ⟨k1, _⟩ | ⟨k1, _⟩ <;> rcases abs_cases b with ⟨k2, _⟩ | ⟨k2, _⟩ <;> omega
      · rcases e3 with (g | ⟨g, g'⟩) | ⟨rfl, g⟩
        · omega
        · exfalso
          rcases abs_cases a with ⟨k1, _⟩ | ⟨k1, _⟩ <;> rcases abs_cases w with ⟨k3, _⟩ | ⟨k3, _⟩ <;> omega
        · omega
    push_cast
    omega

/-- C125: for a semistandard tableau of a shifted skew shape, `hinge(index)` with `index > 0` raises no exception and returns the only `x`
with `HingeAt`, or None if there is none.  At a hinge the letters on the diagonal are `index` and `index + 1`. -/
theorem C125_hinge {mu nu : List Nat} (hm : IsStrict mu) (hn : IsStrict nu) {T : Tab} (hp : Plain T)
    (hdom : ∀ b, (T.get? b).isSome ↔ b ∈ ShiftedDiagram mu \ ShiftedDiagram nu) (hs : isSemistandardV T = some true) {index : Int}
    (hi : 0 < index) : ∃ r, hinge? T index = some r ∧ (∀ x, r = some x ↔ HingeAt T index x) ∧
      ∀ x, r = some x → ∃ v w, T.get? (x, x) = some [v] ∧ |v| = index ∧ T.get? (x + 1, x + 1) = some [w] ∧ |w| = index + 1 := by
  have hdiag : ∀ x, HingeAt T index x → ∃ v w, T.get? (x, x) = some [v] ∧ |v| = index ∧ T.get? (x + 1, x + 1) = some [w] ∧ |w| = index + 1 := by
    intro x hx
    obtain ⟨v, hv, hv'⟩ := hx (x, x) (by simp)
    obtain ⟨w, hw, hw'⟩ := hx (x + 1, x + 1) (by simp)
    have := diag_increasing hm hn hp hdom hs hv 1 w hw
    exact ⟨v, w, hv, by omega, hw, by omega⟩
  have huniq : ∀ x y, HingeAt T index x → HingeAt T index y → ¬ x < y := by
    intro x y hx hy hlt
    obtain ⟨v, _, hv, hv', _⟩ := hdiag x hx
    obtain ⟨_, w, _, _, hw, hw'⟩ := hdiag y hy
    have := diag_increasing hm hn hp hdom hs hv (y + 1 - x) w (by rw [show x + (y + 1 - x) = y + 1 by omega]; exact hw)
    omega
  unfold hinge?
  rw [if_pos hi]
  dsimp only
  obtain ⟨l, hl⟩ : ∃ l, ((T.items.map Prod.fst).filter (fun b => decide (b.1 = b.2) && inArgs T index b && inArgs T index (b.1, b.2 + 1) &&
      inArgs T index (b.1 + 1, b.2 + 1))).map Prod.fst = l := ⟨_, rfl⟩
  have hmem : ∀ x, x ∈ l ↔ HingeAt T index x := fun x => by rw [← hl]; exact hinge_mem hi x
  have hnd : l.Nodup := by
    rw [← hl]
    refine List.Nodup.map_on ?_ (List.Nodup.filter _ T.keys_nodup)
    rintro ⟨a, b⟩ hb ⟨a', b'⟩ hb' he
    rw [List.mem_filter, Bool.and_eq_true, Bool.and_eq_true, Bool.and_eq_true, decide_eq_true_eq] at hb hb'
    have e1 := hb.2.1.1.1
    have e2 := hb'.2.1.1.1
    dsimp only at e1 e2 he
    rw [← e1, ← e2, he]
  rw [hl]
  have hlen : l.length ≤ 1 := by
    match l, hmem, hnd with
    | [], _, _ => simp
    | [_], _, _ => simp
    | a :: b :: t, hmem, hnd =>
      exfalso
      have ha := (hmem a).1 (by simp)
      have hb := (hmem b).1 (by simp)
      have h1 := huniq a b ha hb
      have h2 := huniq b a hb ha
      rw [List.nodup_cons] at hnd
      apply hnd.1
      rw [show a = b by omega]
      simp
  rw [if_pos hlen]
  have hiff : ∀ x, l.head? = some x ↔ HingeAt T index x := by
    intro x
    rw [← hmem]
    match l, hlen with
    | [], _ => simp
    | [a], _ => simp [eq_comm]
  exact ⟨_, rfl, hiff, fun x hx => hdiag x ((hiff x).1 hx)⟩

/-- C125: the valued-set tableaux that `all` returns satisfy the hypotheses. -/
theorem C125_all {mu nu : List Nat} (dp : Bool) (n : Nat) (hm : IsStrict mu) (hn : IsStrict nu) {S : Finset Tab}
    (hS : semistandardShiftedMarked dp false nu n mu = some S) {tabs : List Tab} (ht : ListsSet tabs S) {B : Finset (Tab × Tab)}
    (hB : allOf tabs = some B) {V : Tab × Tab} (hV : V ∈ B) {index : Int} (hi : 0 < index) :
    ∃ r, hinge? V.1 index = some r ∧ ∀ x, r = some x ↔ HingeAt V.1 index x := by
  obtain ⟨h1, _, h3⟩ := C118_all dp n hm hn hS ht hB hV
  obtain ⟨B', g1, g2⟩ := C117_all dp n hm hn hS ht
  rw [hB, Option.some_inj] at g1
  subst g1
  obtain ⟨⟨_, g3⟩, _⟩ := (g2 V).1 hV
  obtain ⟨f, hf⟩ := markedTab_of hm hn g3
  obtain ⟨r, r1, r2, _⟩ := C125_hinge hm hn h1 hf.boxes h3 hi
  exact ⟨r, r1, r2⟩

example : hinge? exampleTab 1 = some (some 1) ∧ hinge? exampleTab 2 = some none ∧ isSemistandardV exampleTab = some true := by decide +kernel

/-- The assertion can fail for tableaux that are not semistandard. -/
example : hinge? (((((Tab.empty.set (1, 1) [1]).set (1, 2) [1]).set (2, 2) [1]).set (2, 3) [1]).set (3, 3) [1]) 1 = none := by decide +kernel

end Verif.Vst
