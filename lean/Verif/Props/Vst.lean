import Verif.Lemmas.VstSum

/-! # C117: valued-set tableaux -/

attribute [-simp] List.getD_eq_getElem?_getD

namespace Verif.Vst

open Symm Tableaux Verif.Part Partition

/-! ### specification -/

/-- The boxes of the group ends (grouping `0`) with the letters `i` and `i'`. -/
def ends (V : Tab × Tab) (i : Nat) : Set (Nat × Nat) :=
  {b | V.2.get? b = some [0] ∧ (V.1.get? b = some [(i : Int)] ∨ V.1.get? b = some [-(i : Int)])}

/-- The product of `x_i` for every group with the letter `i` or `i'`, times `w` for every box that is not the end of a group. -/
noncomputable def vstTerm (w : Laurent) (n : Nat) (V : Tab × Tab) : Laurent :=
  (∏ i ∈ Finset.Icc 1 n, Laurent.xpow i 1 ^ (ends V i).ncard) * w ^ {b | V.2.get? b = some [1]}.ncard

/-! ### sums -/

/-- The grouping with `1` in the boxes of `S`. -/
def groupOf (T : Tab) (S : Finset (Nat × Nat)) : Tab :=
  ⟨T.items.map (fun p => (p.1, [if p.1 ∈ S then 1 else 0])), by rw [List.map_map]; exact T.sorted⟩

theorem get?_groupOf {T : Tab} {S : Finset (Nat × Nat)} {b : Nat × Nat} {s : List Int} :
    (groupOf T S).get? b = some s ↔ (T.get? b).isSome ∧ s = [if b ∈ S then 1 else 0] := by
  rw [Tab.get?_eq_some, groupOf, ← mem_keys]
  simp only [List.mem_map, Prod.mk.injEq]
  constructor
  · rintro ⟨p, hp, rfl, rfl⟩
    exact ⟨⟨p, hp, rfl⟩, rfl⟩
  · rintro ⟨⟨p, hp, rfl⟩, rfl⟩
    exact ⟨p, hp, rfl, rfl⟩

theorem get?_groupOf_one {T : Tab} {S : Finset (Nat × Nat)} {b : Nat × Nat} :
    (groupOf T S).get? b = some [1] ↔ (T.get? b).isSome ∧ b ∈ S := by
  rw [get?_groupOf]
  refine and_congr_right (fun _ => ?_)
  split <;> simp_all

theorem get?_groupOf_zero {T : Tab} {S : Finset (Nat × Nat)} {b : Nat × Nat} :
    (groupOf T S).get? b = some [0] ↔ (T.get? b).isSome ∧ b ∉ S := by
  rw [get?_groupOf]
  refine and_congr_right (fun _ => ?_)
  split <;> simp_all

section
variable {mu nu : List Nat} {n : Nat} {T : Tab} {f : Nat × Nat → Int} (h : MarkedTab mu nu n T f)
include h

theorem isVst_iff (G : Tab) : IsVst T G ↔ ∃ S ∈ (freeSet T).powerset, groupOf T S = G := by
  constructor
  · intro hG
    refine ⟨(keySet T).filter (fun b => G.get? b = some [1]), ?_, Tab.ext_get? (fun b => Option.ext (fun s => ?_))⟩
    · rw [Finset.mem_powerset]
      intro b hb
      rw [Finset.mem_filter, mem_key h] at hb
      rw [mem_free h]
      refine ⟨hb.1, ?_⟩
      rcases hG.2 b.1 b.2 _ hb.2 with h1 | ⟨_, h1⟩
      · simp at h1
      · exact h1
    · rw [get?_groupOf]
      constructor
      · rintro ⟨h1, rfl⟩
        obtain ⟨s, hs⟩ := Option.isSome_iff_exists.1 ((hG.1 b).2 h1)
        have h2 := hG.2 b.1 b.2 s hs
        rcases h2 with rfl | ⟨rfl, _⟩
        · rw [if_neg (by simp [hs]), hs]
        · rw [if_pos (Finset.mem_filter.2 ⟨mem_keySet.2 h1, hs⟩), hs]
      · intro hs
        have h1 : (T.get? b).isSome := (hG.1 b).1 (by rw [hs]; rfl)
        refine ⟨h1, ?_⟩
        rcases hG.2 b.1 b.2 s hs with rfl | ⟨rfl, _⟩
        · rw [if_neg (by simp [hs])]
        · rw [if_pos (Finset.mem_filter.2 ⟨mem_keySet.2 h1, hs⟩)]
  · rintro ⟨S, hS, rfl⟩
    rw [Finset.mem_powerset] at hS
    refine ⟨fun b => ?_, fun i j s hs => ?_⟩
    · constructor
      · intro h1
        obtain ⟨s, hs⟩ := Option.isSome_iff_exists.1 h1
        exact (get?_groupOf.1 hs).1
      · intro h1
        rw [get?_groupOf.2 ⟨h1, rfl⟩]; rfl
    · rw [get?_groupOf] at hs
      obtain ⟨h1, rfl⟩ := hs
      by_cases hb : (i, j) ∈ S
      · right
        rw [if_pos hb]
        exact ⟨rfl, ((mem_free h).1 (hS hb)).2⟩
      · left
        rw [if_neg hb]

theorem natAbs_mem {b : Nat × Nat} (hb : b ∈ skewD mu nu) : (f b).natAbs ∈ Finset.Icc 1 n := by
  have := h.marked.1 b hb
  rw [Finset.mem_Icc]
  rw [Int.abs_eq_natAbs] at this
  omega

theorem ends_groupOf (S : Finset (Nat × Nat)) (i : Nat) :
    (ends (T, groupOf T S) i).ncard = ((keySet T \ S).filter (fun b => (f b).natAbs = i)).card := by
  rw [← Set.ncard_coe_finset]
  congr 1
  ext b
  simp only [ends, Set.mem_ofPred_eq, get?_groupOf_zero, h.get?_iff, Finset.coe_filter, Finset.mem_sdiff, mem_key h, h.boxes]
  constructor
  · rintro ⟨⟨h1, h2⟩, h3⟩
    exact ⟨⟨h1, h2⟩, by omega⟩
  · rintro ⟨⟨h1, h2⟩, h3⟩
    refine ⟨⟨h1, h2⟩, ?_⟩
    rw [← and_or_left]
    exact ⟨h1, by omega⟩

theorem vstTerm_groupOf (w : Laurent) {S : Finset (Nat × Nat)} (hS : S ⊆ freeSet T) : vstTerm w n (T, groupOf T S) =
    (∏ b ∈ keySet T \ S, Laurent.xpow ((f b).natAbs : Nat) 1) * w ^ S.card := by
  have h1 : {b | (groupOf T S).get? b = some [1]}.ncard = S.card := by
    rw [← Set.ncard_coe_finset]
    congr 1
    ext b
    rw [Set.mem_ofPred_eq, get?_groupOf_one, Finset.mem_coe, h.boxes]
    exact ⟨fun h => h.2, fun hb => ⟨((mem_free h).1 (hS hb)).1, hb⟩⟩
  rw [vstTerm, h1]
  congr 1
  rw [← Finset.prod_fiberwise_of_maps_to' (s := keySet T \ S) (t := Finset.Icc 1 n) (g := fun b => (f b).natAbs)
      (fun b hb => natAbs_mem h ((mem_key h).1 (Finset.sdiff_subset hb))) (fun i => Laurent.xpow (i : Nat) 1)]
  refine Finset.prod_congr rfl (fun i _ => ?_)
  rw [Finset.prod_const, ends_groupOf h]

end

/-- The sum over the groupings of one tableau is the product `lineTerm` of that tableau. -/
theorem sum_groupings {mu nu : List Nat} {n : Nat} {tabs : Finset Tab} (h : ∀ T ∈ tabs, ∃ f, MarkedTab mu nu n T f)
    {B : Finset (Tab × Tab)} (hB : ∀ V, V ∈ B ↔ V.1 ∈ tabs ∧ IsVst V.1 V.2) (w : Laurent) :
    ∑ V ∈ B, vstTerm w n V = ∑ T ∈ tabs, lineTerm w n T := by
  classical
  have hBeq : B = (tabs.sigma (fun T => (freeSet T).powerset)).image (fun p => (p.1, groupOf p.1 p.2)) := by
    ext ⟨T, G⟩
    rw [hB, Finset.mem_image]
    constructor
    · rintro ⟨h1, h2⟩
      obtain ⟨f, hf⟩ := h T h1
      obtain ⟨S, hS, h3⟩ := (isVst_iff hf G).1 h2
      exact ⟨⟨T, S⟩, Finset.mem_sigma.2 ⟨h1, hS⟩, Prod.ext rfl h3⟩
    · rintro ⟨⟨T', S⟩, h1, h2⟩
      rw [Finset.mem_sigma] at h1
      simp only [Prod.mk.injEq] at h1 h2
      obtain ⟨rfl, h3⟩ := h2
      obtain ⟨f, hf⟩ := h T' h1.1
      exact ⟨h1.1, (isVst_iff hf G).2 ⟨S, h1.2, h3⟩⟩
  rw [hBeq, Finset.sum_image, Finset.sum_sigma]
  · refine Finset.sum_congr rfl (fun T hT => ?_)
    obtain ⟨f, hf⟩ := h T hT
    rw [lineTerm_sum hf]
    exact Finset.sum_congr rfl (fun S hS => vstTerm_groupOf hf w (Finset.mem_powerset.1 hS))
  · rintro ⟨T, S⟩ h1 ⟨T', S'⟩ h2 he
    simp only [Prod.mk.injEq] at he
    obtain ⟨rfl, he⟩ := he
    rw [Finset.mem_coe, Finset.mem_sigma] at h1 h2
    simp only at h1 h2
    obtain ⟨f, hf⟩ := h T h1.1
    have hk : ∀ S ∈ (freeSet T).powerset, ∀ b, b ∈ S ↔ (groupOf T S).get? b = some [1] := by
      intro S hS b
      rw [get?_groupOf_one, hf.boxes]
      exact ⟨fun hb => ⟨((mem_free hf).1 (Finset.mem_powerset.1 hS hb)).1, hb⟩, fun hb => hb.2⟩
    have : S = S' := by
      ext b
      rw [hk S h1.2, hk S' h2.2, he]
    rw [this]

/-! ### weights -/

theorem weightStep_some {T G : Tab} {n : Nat} {ans : List Nat} (hl : ans.length = n) {b : Nat × Nat} {x a : Int}
    (hG : G.get? b = some [x]) (hT : T.get? b = some [a]) (ha : a ≠ 0) (han : a.natAbs ≤ n) :
    ∃ ans', weightStep T G ans b = some ans' ∧ ans'.length = n ∧
      ∀ i, ans'.getD i 0 = ans.getD i 0 + (if x = 0 ∧ a.natAbs = i + 1 then 1 else 0) := by
  have ht : truthy G b = decide (x ≠ 0) := by rw [truthy, hG]
  rw [weightStep, ht]
  by_cases hx : x = 0
  · subst hx
    rw [if_neg (by simp), entry_some.2 hT]
    simp only [ha, if_false]
    rw [if_pos (by omega)]
    refine ⟨_, rfl, by rw [List.length_set, hl], fun i => ?_⟩
    have hlt : a.natAbs - 1 < ans.length := by omega
    by_cases hi : a.natAbs = i + 1
    · rw [if_pos ⟨trivial, hi⟩, show a.natAbs - 1 = i by omega, List.getD_eq_getElem _ _ (by rw [List.length_set]; omega),
        List.getElem_set_self]
    · rw [if_neg (by tauto), List.getD_eq_getElem?_getD, List.getElem?_set_ne (by omega), ← List.getD_eq_getElem?_getD, Nat.add_zero]
  · refine ⟨ans, by rw [if_pos (by simp [hx])], hl, fun i => by rw [if_neg (by tauto), Nat.add_zero]⟩

theorem weight_fold {T G : Tab} {n : Nat} {g f : Nat × Nat → Int} (l : List (Nat × Nat)) (hl : ∀ b ∈ l, G.get? b = some [g b] ∧
    T.get? b = some [f b] ∧ f b ≠ 0 ∧ (f b).natAbs ≤ n) {ans : List Nat} (ha : ans.length = n) :
    ∃ ans', l.foldlM (weightStep T G) ans = some ans' ∧ ans'.length = n ∧
      ∀ i, ans'.getD i 0 = ans.getD i 0 + (l.filter (fun b => decide (g b = 0 ∧ (f b).natAbs = i + 1))).length := by
  induction l generalizing ans with
  | nil => exact ⟨ans, rfl, ha, fun i => rfl⟩
  | cons b t ih =>
    obtain ⟨h1, h2, h3, h4⟩ := hl b List.mem_cons_self
    obtain ⟨a1, h5, h6, h7⟩ := weightStep_some ha h1 h2 h3 h4
    obtain ⟨a2, h8, h9, h10⟩ := ih (fun c hc => hl c (List.mem_cons_of_mem _ hc)) h6
    refine ⟨a2, ?_, h9, fun i => ?_⟩
    · rw [List.foldlM_cons, h5]; exact h8
    · rw [h10, h7, List.filter_cons]
      by_cases hc : g b = 0 ∧ (f b).natAbs = i + 1
      · rw [if_pos hc, if_pos (by simp [hc]), List.length_cons]; omega
      · rw [if_neg hc, if_neg (by simpa using hc)]; rfl

/-! ### C117 -/

variable {mu nu : List Nat}

/-- C117: for strict partitions, `ValuedSetTableau.all(n, mu, nu, diagonal_primes)` raises no exception, in whatever order the set of
tableaux is traversed, and returns all pairs of a shifted marked tableau of the shape `mu/nu` and a grouping of its boxes. -/
theorem C117_all (dp : Bool) (n : Nat) (hm : IsStrict mu) (hn : IsStrict nu) {S : Finset Tab}
    (hS : semistandardShiftedMarked dp false nu n mu = some S) {tabs : List Tab} (ht : ListsSet tabs S) :
    ∃ B, allOf tabs = some B ∧ ∀ V : Tab × Tab, V ∈ B ↔ (ShiftedDiagram nu ⊆ ShiftedDiagram mu ∧
      IsTableauOf false (ShiftedDiagram mu \ ShiftedDiagram nu) (IsMarked dp n (ShiftedDiagram mu \ ShiftedDiagram nu)) V.1.get?) ∧
        IsVst V.1 V.2 := by
  obtain ⟨S', h1, h2⟩ := C51_semistandard_shifted_marked dp false n hm hn
  rw [hS, Option.some_inj] at h1
  subst h1
  obtain ⟨B, h3, h4⟩ := allOf_some (tabs := tabs) (fun T hT => by
    obtain ⟨f, hf⟩ := markedTab_of hm hn ((h2 T).1 ((ht.2 T).1 hT)).2
    exact hf.plain)
  exact ⟨B, h3, fun V => by rw [h4, ht.2, h2]⟩

/-- C117: `weight(n)` of any of these counts the groups with the letters `i` and `i'`. -/
theorem C117_weight (dp : Bool) (n : Nat) (hm : IsStrict mu) (hn : IsStrict nu) {V : Tab × Tab}
    (hT : IsTableauOf false (ShiftedDiagram mu \ ShiftedDiagram nu) (IsMarked dp n (ShiftedDiagram mu \ ShiftedDiagram nu)) V.1.get?)
    (hV : IsVst V.1 V.2) : ∃ wt, weight V.1 V.2 n = some wt ∧ wt.length = n ∧ ∀ i < n, wt[i]? = some (ends V (i + 1)).ncard := by
  obtain ⟨T, G⟩ := V
  obtain ⟨f, hf⟩ := markedTab_of hm hn hT
  have hg : ∀ b ∈ G.items.map Prod.fst, G.get? b = some [(G.entry b).getD 0] ∧ T.get? b = some [f b] ∧ f b ≠ 0 ∧ (f b).natAbs ≤ n := by
    intro b hb
    have h1 := mem_keys.1 hb
    have h2 := (hf.boxes b).1 ((hV.1 b).1 h1)
    obtain ⟨s, hs⟩ := Option.isSome_iff_exists.1 h1
    refine ⟨?_, hf.val b h2, hf.ne h2, (Finset.mem_Icc.1 (natAbs_mem hf h2)).2⟩
    rcases hV.2 b.1 b.2 s hs with rfl | ⟨rfl, _⟩
    · rw [entry_some.2 hs, hs]; rfl
    · rw [entry_some.2 hs, hs]; rfl
  obtain ⟨wt, h1, h2, h3⟩ := weight_fold (n := n) (T := T) (G := G) _ hg (List.length_replicate (n := n) (a := 0))
  refine ⟨wt, h1, h2, fun i hi => ?_⟩
  have h4 := h3 i
  rw [List.getD_eq_getElem _ _ (by omega), List.getD_replicate _ (by omega), Nat.zero_add] at h4
  rw [List.getElem?_eq_getElem (by omega), h4, Option.some_inj, ← List.toFinset_card_of_nodup (G.keys_nodup.filter _),
    ← Set.ncard_coe_finset]
  congr 1
  ext b
  rw [Finset.mem_coe, List.mem_toFinset, List.mem_filter, decide_eq_true_iff, ends, Set.mem_ofPred_eq]
  constructor
  · rintro ⟨hb, h5, h6⟩
    obtain ⟨e1, e2, _, _⟩ := hg b hb
    refine ⟨by rw [e1, h5], ?_⟩
    simp only [e2, Option.some_inj, List.cons.injEq, and_true]
    omega
  · rintro ⟨h5, h6⟩
    have hb : b ∈ G.items.map Prod.fst := mem_keys.2 (by rw [h5]; rfl)
    obtain ⟨e1, e2, _, _⟩ := hg b hb
    refine ⟨hb, ?_, ?_⟩
    · rw [e1] at h5; simpa using h5
    · simp only [e2, Option.some_inj, List.cons.injEq, and_true] at h6
      omega

/-- C117: the transposed dual functions `slow_transposed_dual_stable_grothendieck_p` (without primes on the diagonal) and `_q` (with
primes on the diagonal) are the weight generating functions of the valued-set tableaux that `ValuedSetTableau.all` returns, with
`-beta` for every box that is not the end of its group. -/
theorem C117_dual (dp : Bool) (n : Nat) (hm : IsStrict mu) (hn : IsStrict nu) {beta : Poly}
    (hb : beta = Poly.neg Poly.beta ∨ beta = Poly.beta) {S : Finset Tab}
    (hS : semistandardShiftedMarked dp false nu n mu = some S) {tabs tabs' : List Tab} (ht : ListsSet tabs S) (ht' : ListsSet tabs' S) :
    ∃ f B, transposedDualMarked n mu nu beta tabs = some f ∧ allOf tabs' = some B ∧
      (polynomial Poly.x n f).den = ∑ V ∈ B, vstTerm (-beta.den) n V := by
  obtain ⟨f, h1, _, _, h2⟩ := C101_transposed_marked dp n hm hn hb hS ht
  obtain ⟨S', h3, h4⟩ := C51_semistandard_shifted_marked dp false n hm hn
  rw [hS, Option.some_inj] at h3
  subst h3
  have hmt : ∀ T ∈ S, ∃ f, MarkedTab mu nu n T f := fun T hT => markedTab_of hm hn ((h4 T).1 hT).2
  obtain ⟨B, h5, h6⟩ := allOf_some (tabs := tabs') (fun T hT => by
    obtain ⟨f, hf⟩ := hmt T ((ht'.2 T).1 hT)
    exact hf.plain)
  refine ⟨f, B, h1, h5, ?_⟩
  rw [h2, sum_groupings hmt (fun V => by rw [h6, ht'.2])]

/-- The tableau with the rows `1' 1 1` and `. 2' 2`, as in the examples. -/
def exampleTab : Tab :=
  ((((Tab.empty.set (1, 1) [-1]).set (1, 2) [1]).set (1, 3) [1]).set (2, 2) [-2]).set (2, 3) [2]

/-- A grouping of `exampleTab`. -/
def exampleGroup : Tab :=
  ((((Tab.empty.set (1, 1) [0]).set (1, 2) [1]).set (1, 3) [0]).set (2, 2) [0]).set (2, 3) [0]

example : (semistandardShiftedMarked true false [] 2 [3, 2]).map (fun S => decide (exampleTab ∈ S)) = some true := by decide +kernel
example : (allOf [exampleTab]).map Finset.card = some 2 := by decide +kernel
example : (allOf [exampleTab]).map (fun B => decide ((exampleTab, exampleGroup) ∈ B)) = some true := by decide +kernel
example : weight exampleTab exampleGroup 2 = some [2, 2] := by decide +kernel
example : (semistandardShiftedMarked true false [] 2 [2, 1]).map Finset.card = some 8 := by decide +kernel

end Verif.Vst
