import Verif.Lemmas.UnprimeSort

/-!
# C122: `setvalued_column_insert` keeps a column increasing
-/

attribute [-simp] List.getD_eq_getElem?_getD

namespace Verif.Unprime

open Verif

/-- The specification of the order along columns, `1' ≤ 1' < 1 < 2' ≤ 2' < 2 < ...`, where `k'` is `-k`: only primed entries repeat. -/
def ColLe (x y : Int) : Prop := x.natAbs < y.natAbs ∨ (x.natAbs = y.natAbs ∧ x < 0)

/-- Only negative (primed) entries occur more than once. -/
def Simple (s : List Int) : Prop := ∀ x, 0 ≤ x → s.count x ≤ 1

/-- The specification of an increasing column. -/
def ColInc (T : Tab) (c : Nat) : Prop :=
  (∀ r r', 1 ≤ r → r < r' → ∀ x ∈ T.ent (r, c), ∀ y ∈ T.ent (r', c), ColLe x y) ∧ ∀ r, 1 ≤ r → Simple (T.ent (r, c))

/-- The boxes of the column are in the first rows. -/
def Top (T : Tab) (c : Nat) : Prop := ∀ r, 1 ≤ r → T.has (r + 1, c) = true → T.has (r, c) = true

theorem colLe_iff (x y : Int) : ColLe x y ↔ Rc (enc x) (enc y) := by
  unfold ColLe Rc enc
  split_ifs <;> omega

theorem enc_inj : Function.Injective enc := fun a b h => by rw [← dec_enc a, h, dec_enc]

theorem enc_dec {z : Int} (h : 0 ≤ z) : enc (dec z) = z := by
  unfold dec enc
  rw [Int.fdiv_eq_ediv_of_nonneg _ (by norm_num), Int.fdiv_eq_ediv_of_nonneg _ (by norm_num)]
  split_ifs <;> omega

theorem enc_nonneg (x : Int) : 0 ≤ enc x := by unfold enc; split_ifs <;> omega

theorem pairwise_Rc_iff (l : List Int) (hl : l.Pairwise (· ≤ ·)) : l.Pairwise Rc ↔ ∀ z, z % 2 = 0 → l.count z ≤ 1 := by
  induction l with
  | nil => simp
  | cons a t ih =>
    rw [List.pairwise_cons] at hl ⊢
    rw [ih hl.2]
    constructor
    · rintro ⟨h1, h2⟩ z hz
      rw [List.count_cons]
      split_ifs with ha
      · have : t.count z = 0 := by
          rw [List.count_eq_zero]
          intro hm
          have h3 := h1 z hm
          have ha' : a = z := by simpa using ha
          unfold Rc at h3
          omega
        omega
      · have := h2 z hz
        omega
    · intro h
      constructor
      · intro b hb
        have hab := hl.1 b hb
        unfold Rc
        by_contra hc
        have hEq : a = b := by omega
        have hev : a % 2 = 0 := by omega
        have h2 := h a hev
        rw [List.count_cons_self] at h2
        have h3 : 0 < t.count a := List.count_pos_iff.2 (by rw [hEq]; exact hb)
        omega
      · intro z hz
        have h2 := h z hz
        rw [List.count_cons] at h2
        omega

theorem count_encode (s : List Int) (x : Int) : (encode s).count (enc x) = s.count x := by
  rw [(encode_perm s).count_eq, List.count_map_of_injective _ _ enc_inj]

theorem encode_Rc {s : List Int} (h : Simple s) : (encode s).Pairwise Rc := by
  refine (pairwise_Rc_iff (encode s) (Tab.sortInts_sorted _)).2 ?_
  intro z hz
  by_cases hm : z ∈ encode s
  · rw [(encode_perm s).mem_iff] at hm
    obtain ⟨x, _, rfl⟩ := List.mem_map.1 hm
    rw [count_encode]
    apply h
    by_contra hc
    unfold enc at hz
    rw [if_pos (by omega)] at hz
    omega
  · rw [List.count_eq_zero.2 hm]; omega

theorem decode_simple {b : List Int} (h0 : ∀ z ∈ b, 0 ≤ z) (h : b.Pairwise Rc) : Simple (decode b) := by
  intro x hx
  have hb : (b.map dec).map enc = b := by
    rw [List.map_map]
    conv_rhs => rw [← List.map_id b]
    apply List.map_congr_left
    intro z hz
    exact enc_dec (h0 z hz)
  rw [(decode_perm b).count_eq, ← List.count_map_of_injective _ _ enc_inj, hb]
  refine (pairwise_Rc_iff b (h.imp ?_)).1 h _ ?_
  · intro a b hab
    unfold Rc at hab
    omega
  · unfold enc
    rw [if_neg (by omega)]
    omega

theorem cont_eq (B : List (List Int)) : cont B = Multiset.ofList B.flatten := by
  induction B with
  | nil => rfl
  | cons b t ih => rw [cont_cons, ih, List.flatten_cons, Multiset.coe_add]

theorem top_absent {T : Tab} {c : Nat} (h : Top T c) {n : Nat} (hn : T.has (n + 1, c) = false) : ∀ r, n < r → T.has (r, c) = false := by
  intro r hr
  induction r with
  | zero => omega
  | succ r ih =>
    rcases Nat.lt_or_ge n r with h1 | h1
    · by_contra hc
      rw [Bool.not_eq_false] at hc
      have := h r (by omega) hc
      rw [ih h1] at this
      simp at this
    · rw [show r = n by omega]; exact hn

theorem ent_absent {T : Tab} {b : Nat × Nat} (h : T.has b = false) : T.ent b = [] := by
  unfold Tab.has at h
  unfold Tab.ent
  rw [Option.isSome_eq_false_iff, Option.isNone_iff_eq_none] at h
  rw [h]; rfl

/-- C122.  If the boxes of a column are its first rows, the column is increasing, and the inserted tuple has no positive entry
twice, then the new column is again in the first rows and increasing, and the returned tuple has no positive entry twice. -/
theorem C122_column_increasing (T T' : Tab) (s r : List Int) (c : Nat) (hT : Full T) (hs : s ≠ []) (htop : Top T c) (hinc : ColInc T c)
    (hsimple : Simple s) (h : columnInsert T s c = some (T', r)) : Top T' c ∧ ColInc T' c ∧ Simple r := by
  unfold columnInsert at h
  split_ifs at h with h1
  · dsimp only at h
    obtain ⟨hn1, hn2, hn3⟩ := countRows_spec T c T.maxRow 1 (by omega) (le_refl _) (by
      intro r hr hr'
      rw [show r = 1 by omega]; exact h1)
    obtain ⟨n, hn⟩ : ∃ n, countRows T c T.maxRow 1 = n := ⟨_, rfl⟩
    rw [hn] at hn1 hn2 hn3 h
    obtain ⟨bound, hb, hbl⟩ := mapM_some (boundAt T c) (List.range (n + 1)) (by
      intro x _
      unfold boundAt
      cases hx : T.get? (x + 1, c - 1) with
      | none => exact ⟨0, rfl⟩
      | some l =>
        dsimp only
        exact ⟨_, List.getLast?_eq_some_getLast (encode_ne_nil (hT _ _ hx))⟩)
    rw [List.length_range] at hbl
    rw [hb] at h
    dsimp only at h
    obtain ⟨boxes, hbx⟩ : ∃ boxes, (List.range n).map (fun i => encode ((T.get? (i + 1, c)).getD [])) = boxes := ⟨_, rfl⟩
    rw [hbx] at h
    have hlen : boxes.length = n := by rw [← hbx]; simp
    have hbne : ∀ b ∈ boxes, b ≠ [] := by
      intro b hb
      rw [← hbx] at hb
      obtain ⟨i, hi, rfl⟩ := List.mem_map.1 hb
      rw [List.mem_range] at hi
      have := hn3 (i + 1) (by omega) (by omega)
      unfold Tab.has at this
      obtain ⟨l, hl⟩ := Option.isSome_iff_exists.1 this
      rw [hl]
      exact encode_ne_nil (hT _ _ hl)
    have hbR : boxes.flatten.Pairwise Rc := by
      rw [List.pairwise_flatten, ← hbx]
      constructor
      · intro l hl
        obtain ⟨i, _, rfl⟩ := List.mem_map.1 hl
        exact encode_Rc (hinc.2 (i + 1) (by omega))
      · rw [List.pairwise_map]
        refine List.pairwise_lt_range.imp ?_
        intro a b hab x hx y hy
        rw [(encode_perm _).mem_iff] at hx hy
        obtain ⟨x, hx', rfl⟩ := List.mem_map.1 hx
        obtain ⟨y, hy', rfl⟩ := List.mem_map.1 hy
        exact (colLe_iff x y).1 (hinc.1 (a + 1) (b + 1) (by omega) (by omega) x hx' y hy')
    obtain ⟨hg, hgv⟩ := bumps_fold boxes (encode s) (Tab.sortInts_sorted _) [] ⟨List.Pairwise.nil, by simp⟩ (by simp) (by simp)
    have hsb := sorted_fold boxes (encode s) (encode_Rc hsimple) [] ⟨List.Pairwise.nil, by simp⟩ (by simp)
    obtain ⟨B, A, hr1, hr2, hr3, hr4⟩ := bumps_run bound boxes (by omega) _ boxes [] hg hbne (fun _ _ _ _ => rfl) (Or.inl rfl)
    obtain ⟨hBR, hAsub⟩ := sorted_run bound boxes hbR _ boxes [] hg hsb hbR (fun _ _ _ _ => rfl) (start_Rc boxes hbR _ hsb)
      (List.nil_sublist _) (fun _ _ => List.nil_sublist _) B A hr1
    rw [hr1] at h
    rw [hgv] at hr2
    simp only [Option.map_some, Option.some.injEq, Prod.mk.injEq] at h
    obtain ⟨hT', hr⟩ := h
    have hbox0 : ∀ z ∈ boxes.flatten, 0 ≤ z := by
      intro z hz
      obtain ⟨l, hl, hzl⟩ := List.mem_flatten.1 hz
      rw [← hbx] at hl
      obtain ⟨i, _, rfl⟩ := List.mem_map.1 hl
      rw [(encode_perm _).mem_iff] at hzl
      obtain ⟨x, _, rfl⟩ := List.mem_map.1 hzl
      exact enc_nonneg x
    have hB0 : ∀ z ∈ B.flatten, 0 ≤ z := by
      intro z hz
      have hm : z ∈ cont B + Multiset.ofList A := by
        rw [Multiset.mem_add, cont_eq]; left; exact hz
      rw [hr2] at hm
      simp only [bumpVals, List.map_nil, List.sum_nil, zero_add, Multiset.coe_nil, add_zero, Multiset.mem_add, cont_eq, Multiset.mem_coe] at hm
      rcases hm with hm | hm
      · exact hbox0 z hm
      · rw [(encode_perm _).mem_iff] at hm
        obtain ⟨x, _, rfl⟩ := List.mem_map.1 hm
        exact enc_nonneg x
    have habs := top_absent htop hn2
    have hhas : ∀ k, 1 ≤ k → T'.get? (k, c) = if k ≤ B.length then some (decode (B.getD (k - 1) [])) else none := by
      intro k hk
      rw [← hT', setColumn_get?]
      by_cases hkB : k ≤ B.length
      · rw [if_pos ⟨rfl, by dsimp only; omega, by dsimp only; omega⟩, if_pos hkB, Nat.sub_zero]
      · rw [if_neg (by dsimp only; omega), if_neg hkB]
        have := habs k (by omega)
        unfold Tab.has at this
        rwa [Option.isSome_eq_false_iff, Option.isNone_iff_eq_none] at this
    have hent : ∀ k, 1 ≤ k → ∀ x ∈ T'.ent (k, c), ∃ hk : k - 1 < B.length, enc x ∈ B[k - 1] := by
      intro k hk x hx
      unfold Tab.ent at hx
      rw [hhas k hk] at hx
      split_ifs at hx with hkB
      · rw [Option.getD_some, List.getD_eq_getElem _ _ (by omega), (decode_perm _).mem_iff] at hx
        obtain ⟨z, hz, rfl⟩ := List.mem_map.1 hx
        refine ⟨by omega, ?_⟩
        rw [enc_dec (hB0 z (List.mem_flatten.2 ⟨_, List.getElem_mem _, hz⟩))]
        exact hz
      · simp at hx
    rw [List.pairwise_flatten] at hBR
    refine ⟨?_, ⟨?_, ?_⟩, ?_⟩
    · intro k hk hk2
      unfold Tab.has at hk2 ⊢
      rw [hhas (k + 1) (by omega)] at hk2
      rw [hhas k hk]
      split_ifs at hk2 with hc
      · rw [if_pos (by omega)]; rfl
      · simp at hk2
    · intro k k' hk hkk x hx y hy
      obtain ⟨h1, h2⟩ := hent k hk x hx
      obtain ⟨h3, h4⟩ := hent k' (by omega) y hy
      rw [colLe_iff]
      exact List.pairwise_iff_getElem.1 hBR.2 (k - 1) (k' - 1) h1 h3 (by omega) _ h2 _ h4
    · intro k hk
      unfold Tab.ent
      rw [hhas k hk]
      split_ifs with hkB
      · rw [Option.getD_some, List.getD_eq_getElem _ _ (by omega)]
        exact decode_simple (fun z hz => hB0 z (List.mem_flatten.2 ⟨_, List.getElem_mem _, hz⟩)) (hBR.1 _ (List.getElem_mem _))
      · intro x _
        simp
    · rw [← hr]
      exact decode_simple (fun z hz => hbox0 z (hAsub.subset hz)) (hbR.sublist hAsub)
  · rw [Bool.not_eq_true] at h1
    rw [Option.some.injEq, Prod.mk.injEq] at h
    obtain ⟨hT', hr⟩ := h
    have habs := top_absent (n := 0) htop h1
    have hother : ∀ k, 1 < k → T'.has (k, c) = false := by
      intro k hk
      have := habs k (by omega)
      unfold Tab.has at this ⊢
      rw [← hT', Tab.get?_set, if_neg (by simp; omega)]
      exact this
    refine ⟨?_, ⟨?_, ?_⟩, ?_⟩
    · intro k hk hk2
      rw [hother (k + 1) (by omega)] at hk2
      simp at hk2
    · intro k k' hk hkk x hx y hy
      rw [ent_absent (hother k' (by omega))] at hy
      simp at hy
    · intro k hk
      rcases Nat.lt_or_ge 1 k with hk1 | hk1
      · rw [ent_absent (hother k hk1)]
        intro x _
        simp
      · rw [show k = 1 by omega, ← hT', Tab.ent_set, if_pos rfl]
        intro x hx
        rw [(Tab.sortInts_perm' s).count_eq]
        exact hsimple x hx
    · rw [← hr]
      intro x _
      simp

/-- A column with the boxes `{1', 1}`, `{2'}`, `{2', 3}`. -/
def exampleColumn : Tab := ⟨[((1, 2), [-1, 1]), ((2, 2), [-2]), ((3, 2), [-2, 3])], by decide +kernel⟩

example : Top exampleColumn 2 ∧ ColInc exampleColumn 2 ∧ Simple [-2, 1, 2] := by
  have hent : ∀ r, exampleColumn.ent (r, 2) = if r = 1 then [-1, 1] else if r = 2 then [-2] else if r = 3 then [-2, 3] else [] := by
    intro r
    unfold Tab.ent Tab.get? exampleColumn
    simp only [Dict.lookup, Prod.mk.injEq, and_true, eq_comm (b := r)]
    split_ifs <;> rfl
  refine ⟨?_, ⟨?_, ?_⟩, ?_⟩
  · intro r hr h
    have hle := Tab.le_maxRow h
    have hm : exampleColumn.maxRow = 3 := by decide +kernel
    rw [hm] at hle
    dsimp only at hle
    have h2 : r = 1 ∨ r = 2 := by omega
    rcases h2 with rfl | rfl <;> rfl
  · intro r r' hr hrr x hx y hy
    rw [hent] at hx hy
    unfold ColLe
    split_ifs at hx hy <;> simp at hx hy <;> omega
  · intro r hr x hx
    rw [hent]
    split_ifs <;> simp only [List.count_cons, List.count_nil, beq_iff_eq] <;> (try split_ifs) <;> omega
  · intro x hx
    simp only [List.count_cons, List.count_nil, beq_iff_eq]
    split_ifs <;> omega

example : (columnInsert exampleColumn [-2, 1, 2] 2).map (fun p => (p.1.items, p.2)) =
    some ([((1, 2), [-1, 1]), ((2, 2), [-2]), ((3, 2), [-2, -2, 2])], [1, 3]) := by decide +kernel

end Verif.Unprime
