import Verif.Model.Marked
import Verif.Lemmas.Layer
import Verif.Spec.Standard
import Verif.Lemmas.Strips
import Verif.Lemmas.SymMul
import Verif.Lemmas.RppStrips

/-! Standard tableaux. -/

attribute [-simp] List.getD_eq_getElem?_getD

namespace Verif.Tableaux

open Tab Verif.Part Partition

/-- The entry of a box. -/
def val (T : Tab) (b : Nat × Nat) : Int := (T.ent b).headD 0

/-- A standard tableau of shape `mu/lam`, possibly with primes. -/
structure StdTab (sh : Bool) (ok : Nat × Nat → Int → Prop) (lam mu : List Nat) (T : Tab) : Prop where
  dom : ∀ b, (T.get? b).isSome ↔ b ∈ shapeSet sh mu \ shapeSet sh lam
  single : ∀ b s, T.get? b = some s → s = [val T b]
  std : IsStandard (mu.sum - lam.sum) (shapeSet sh mu \ shapeSet sh lam) (fun b => |val T b|)
  sign : ∀ b ∈ shapeSet sh mu \ shapeSet sh lam, ok b (val T b)

theorem StdTab.get? {sh ok lam mu T} (h : StdTab sh ok lam mu T) (b : Nat × Nat) [Decidable (b ∈ shapeSet sh mu \ shapeSet sh lam)] :
    T.get? b = if b ∈ shapeSet sh mu \ shapeSet sh lam then some [val T b] else none := by
  split
  · rename_i hb
    obtain ⟨s, hs⟩ := Option.isSome_iff_exists.1 ((h.dom b).2 hb)
    rw [hs, ← h.single b s hs]
  · rename_i hb
    rw [← h.dom] at hb
    simpa using hb

/-- Removal of the last box of a row. -/
theorem remove_shape {sh : Bool} {mu nu : List Nat} {i : Nat} (hi : i < mu.length) (h0 : 0 < mu.getD i 0)
    (he : nu = trim (mu.set i (mu.getD i 0 - 1))) :
    shapeSet sh mu = insert (i + 1, off sh (i + 1) + mu.getD i 0) (shapeSet sh nu) ∧
      (i + 1, off sh (i + 1) + mu.getD i 0) ∉ shapeSet sh nu ∧ nu.sum + 1 = mu.sum := by
  have hg : ∀ k, nu.getD k 0 = if k = i then mu.getD i 0 - 1 else mu.getD k 0 := by
    intro k
    rw [he, getD_trim, Partition.getD_set _ _ _ _ hi]
  refine ⟨?_, ?_, ?_⟩
  · ext ⟨a, b⟩
    rw [Set.mem_insert_iff, mem_shapeSet, mem_shapeSet, hg, Prod.mk.injEq]
    by_cases ha : a = i + 1
    · subst ha
      simp only [Nat.add_sub_cancel, if_true, true_and]
      omega
    · by_cases h1 : 1 ≤ a
      · rw [if_neg (by omega)]
        omega
      · omega
  · rw [mem_shapeSet, hg]
    simp only [Nat.add_sub_cancel, if_true]
    omega
  · have := sum_set mu i (mu.getD i 0 - 1) hi
    rw [he, sum_trim]
    omega

theorem stdTab_add {sh : Bool} {ok : Nat × Nat → Int → Prop} {lam mu nu : List Nat} (hm : IsShape sh mu) {i : Nat}
    (hi : i < mu.length) (he : nu = trim (mu.set i (mu.getD i 0 - 1))) (hnu : IsShape sh nu)
    (hl : shapeSet sh lam ⊆ shapeSet sh nu) (hs : lam.sum ≤ nu.sum)
    {T : Tab} (hT : StdTab sh ok lam nu T) {v : Int} (hv : |v| = (mu.sum : Int) - lam.sum)
    (hok : ok (i + 1, off sh (i + 1) + mu.getD i 0) v) :
    StdTab sh ok lam mu (T.add (i + 1, off sh (i + 1) + mu.getD i 0) v) := by
  classical
  have h0 : 0 < mu.getD i 0 := hm.pos _ (by rw [List.getD_eq_getElem _ _ hi]; exact List.getElem_mem _)
  obtain ⟨h1, h2, h3⟩ := remove_shape (sh := sh) hi h0 he
  obtain ⟨b, hb⟩ : ∃ b, (i + 1, off sh (i + 1) + mu.getD i 0) = b := ⟨_, rfl⟩
  rw [hb] at h1 h2 hok ⊢
  have hD : shapeSet sh mu \ shapeSet sh lam = insert b (shapeSet sh nu \ shapeSet sh lam) := by
    rw [h1, Set.insert_diff_of_notMem _ (fun h => h2 (hl h))]
  have hbn : b ∉ shapeSet sh nu \ shapeSet sh lam := fun h => h2 h.1
  have hgb : T.get? b = none := by rw [hT.get? b, if_neg hbn]
  have hent : T.ent b = [] := by rw [ent, hgb]; rfl
  have hget : ∀ c, (T.add b v).get? c = if c = b then some [v] else T.get? c := by
    intro c
    rw [get?_add, hent]
    rfl
  have hval : ∀ c, val (T.add b v) c = if c = b then v else val T c := by
    intro c
    rw [val, ent, hget]
    split
    · rfl
    · rfl
  have hmax : ∀ c ∈ shapeSet sh nu \ shapeSet sh lam, |val T c| < |v| := by
    intro c hc
    have := (hT.std.1.1 hc).2
    simp only at this
    rw [hv]
    omega
  -- nothing lies to the right of or below `b`
  have hright : ∀ c, c ∈ shapeSet sh mu → c ≠ b → c ∈ shapeSet sh nu := fun c hc hne => by
    rw [h1] at hc
    exact hc.resolve_left hne
  refine ⟨fun c => ?_, fun c s hc => ?_, ⟨?_, ?_, ?_⟩, fun c hc => ?_⟩
  · rw [hget, hD, Set.mem_insert_iff]
    by_cases hcb : c = b
    · simp [hcb]
    · rw [if_neg hcb, hT.dom]
      simp [hcb]
  · rw [hget] at hc
    rw [hval]
    by_cases hcb : c = b
    · rw [if_pos hcb] at hc ⊢
      exact (Option.some_inj.1 hc).symm
    · rw [if_neg hcb] at hc ⊢
      exact hT.single c s hc
  · rw [hD]
    have hbij : Set.BijOn (fun c => |val (T.add b v) c|) (shapeSet sh nu \ shapeSet sh lam)
        (Set.Icc 1 ((nu.sum - lam.sum : Nat) : Int)) := by
      refine hT.std.1.congr (fun c hc => ?_)
      rw [hval, if_neg (fun h : c = b => hbn (h ▸ hc))]
    have hb' : |val (T.add b v) b| = ((mu.sum - lam.sum : Nat) : Int) := by
      rw [hval, if_pos rfl, hv]
      omega
    have := hbij.insert (a := b) (by
      rw [hb', Set.mem_Icc]
      omega)
    convert this using 1
    rw [hb']
    ext x
    rw [Set.mem_insert_iff, Set.mem_Icc, Set.mem_Icc]
    omega
  · intro a c h4 h5
    simp only [hval]
    by_cases hc1 : (a, c) = b
    · exfalso
      have : (a, c + 1) ∈ shapeSet sh nu := hright _ h5.1 (by rw [← hc1]; simp)
      exact h2 (hc1 ▸ shape_left h4.1 this)
    · rw [if_neg hc1]
      have h6 : (a, c) ∈ shapeSet sh nu \ shapeSet sh lam := ⟨hright _ h4.1 hc1, h4.2⟩
      by_cases hc2 : (a, c + 1) = b
      · rw [if_pos hc2]
        exact hmax _ h6
      · rw [if_neg hc2]
        exact hT.std.2.1 a c h6 ⟨hright _ h5.1 hc2, h5.2⟩
  · intro a c h4 h5
    simp only [hval]
    by_cases hc1 : (a, c) = b
    · exfalso
      have : (a + 1, c) ∈ shapeSet sh nu := hright _ h5.1 (by rw [← hc1]; simp)
      exact h2 (hc1 ▸ shape_above hnu h4.1 this)
    · rw [if_neg hc1]
      have h6 : (a, c) ∈ shapeSet sh nu \ shapeSet sh lam := ⟨hright _ h4.1 hc1, h4.2⟩
      by_cases hc2 : (a + 1, c) = b
      · rw [if_pos hc2]
        exact hmax _ h6
      · rw [if_neg hc2]
        exact hT.std.2.2 a c h6 ⟨hright _ h5.1 hc2, h5.2⟩
  · rw [hval]
    split
    · rename_i h; rw [h]; exact hok
    · rename_i h; exact hT.sign c (by rw [hD] at hc; exact hc.resolve_left h)

theorem stdTab_remove {sh : Bool} {ok : Nat × Nat → Int → Prop} {lam mu : List Nat} (hm : IsShape sh mu)
    (hl : IsShape sh lam) (hc : shapeSet sh lam ⊆ shapeSet sh mu) (hs : lam.sum < mu.sum)
    {T : Tab} (hT : StdTab sh ok lam mu T) :
    ∃ i T' v, i < mu.length ∧ IsShape sh (trim (mu.set i (mu.getD i 0 - 1))) ∧
      shapeSet sh lam ⊆ shapeSet sh (trim (mu.set i (mu.getD i 0 - 1))) ∧
      StdTab sh ok lam (trim (mu.set i (mu.getD i 0 - 1))) T' ∧ |v| = (mu.sum : Int) - lam.sum ∧
      ok (i + 1, off sh (i + 1) + mu.getD i 0) v ∧ T = T'.add (i + 1, off sh (i + 1) + mu.getD i 0) v := by
  classical
  obtain ⟨b, hb, hbv⟩ := hT.std.1.2.2 (show ((mu.sum - lam.sum : Nat) : Int) ∈ Set.Icc 1 ((mu.sum - lam.sum : Nat) : Int) by
    rw [Set.mem_Icc]; omega)
  obtain ⟨r, c⟩ := b
  have hle : ∀ d ∈ shapeSet sh mu \ shapeSet sh lam, |val T d| ≤ |val T (r, c)| := by
    intro d hd
    have := (hT.std.1.1 hd).2
    simp only at this hbv
    omega
  have hr : (r, c + 1) ∉ shapeSet sh mu := by
    intro h
    have hD : (r, c + 1) ∈ shapeSet sh mu \ shapeSet sh lam := ⟨h, fun h' => hb.2 (shape_left hb.1 h')⟩
    have h1 := hT.std.2.1 r c hb hD
    have h2 := hle _ hD
    simp only at h1
    omega
  have hd : (r + 1, c) ∉ shapeSet sh mu := by
    intro h
    have hD : (r + 1, c) ∈ shapeSet sh mu \ shapeSet sh lam := ⟨h, fun h' => hb.2 (shape_above hl hb.1 h')⟩
    have h1 := hT.std.2.2 r c hb hD
    have h2 := hle _ hD
    simp only at h1
    omega
  have hbm := mem_shapeSet.1 hb.1
  obtain ⟨i, rfl⟩ : ∃ i, r = i + 1 := ⟨r - 1, by omega⟩
  rw [Nat.add_sub_cancel] at hbm
  have hi : i < mu.length := by
    by_contra hi
    rw [List.getD_eq_default _ _ (by omega)] at hbm
    omega
  have hcm : c = off sh (i + 1) + mu.getD i 0 := by
    rw [mem_shapeSet, Nat.add_sub_cancel] at hr
    omega
  subst hcm
  obtain ⟨nu, hnu⟩ : ∃ nu, trim (mu.set i (mu.getD i 0 - 1)) = nu := ⟨_, rfl⟩
  obtain ⟨h1, h2, h3⟩ := remove_shape (sh := sh) hi (by omega) hnu.symm
  have hg : ∀ k, nu.getD k 0 = if k = i then mu.getD i 0 - 1 else mu.getD k 0 := by
    intro k
    rw [← hnu, getD_trim, Partition.getD_set _ _ _ _ hi]
  have hnushape : IsShape sh nu := by
    have hstep : ∀ k, 0 < nu.getD (k + 1) 0 → nu.getD (k + 1) 0 + (if sh then 1 else 0) ≤ nu.getD k 0 := by
      intro k
      rw [hg, hg]
      have := hm.next k
      by_cases hk : k = i
      · subst hk
        rw [if_neg (by omega), if_pos rfl]
        intro h
        have := this h
        rw [mem_shapeSet] at hd
        simp only [Nat.add_sub_cancel, off] at hd
        cases sh
        · simp at *
          omega
        · simp at *
          omega
      · by_cases hk' : k + 1 = i
        · rw [if_pos hk', if_neg hk]
          rw [hk'] at this
          intro h
          have := this (by omega)
          omega
        · rw [if_neg hk', if_neg hk]
          exact this
    refine isShape_of (fun a ha => ?_) hstep
    rw [← hnu] at ha
    refine trim_pos ?_ a ha
    rw [pairwise_ge_iff]
    intro k
    have h4 := hstep k
    rw [← hnu, getD_trim, getD_trim] at h4
    omega
  have hlnu : shapeSet sh lam ⊆ shapeSet sh nu := by
    intro d hd
    have := hc hd
    rw [h1] at this
    exact this.resolve_left (fun h => hb.2 (h ▸ hd))
  refine ⟨i, ?_⟩
  rw [hnu]
  obtain ⟨b, hbe⟩ : ∃ b, (i + 1, off sh (i + 1) + mu.getD i 0) = b := ⟨_, rfl⟩
  rw [hbe] at h1 h2 hb hbv hle ⊢
  have hD : shapeSet sh mu \ shapeSet sh lam = insert b (shapeSet sh nu \ shapeSet sh lam) := by
    rw [h1, Set.insert_diff_of_notMem _ (fun h => h2 (hlnu h))]
  have hbn : b ∉ shapeSet sh nu \ shapeSet sh lam := fun h => h2 h.1
  have hsub : ∀ d ∈ shapeSet sh nu \ shapeSet sh lam, d ∈ shapeSet sh mu \ shapeSet sh lam := fun d hd => by
    rw [hD]; exact Or.inr hd
  have hval : ∀ d, d ≠ b → val (T.del b) d = val T d := by
    intro d hd
    rw [val, ent, get?_del, if_neg hd]
    rfl
  refine ⟨T.del b, val T b, hi, hnushape, hlnu, ⟨fun d => ?_, fun d s hd => ?_, ⟨?_, ?_, ?_⟩, fun d hd => ?_⟩, ?_, hT.sign b hb, ?_⟩
  · rw [get?_del]
    by_cases hdb : d = b
    · rw [if_pos hdb, hdb]
      simp only [Option.isSome_none, Bool.false_eq_true, false_iff]
      exact hbn
    · rw [if_neg hdb, hT.dom, hD, Set.mem_insert_iff]
      simp only [hdb, false_or]
  · rw [get?_del] at hd
    by_cases hdb : d = b
    · rw [if_pos hdb] at hd
      cases hd
    · rw [if_neg hdb] at hd
      rw [hval d hdb]
      exact hT.single d s hd
  · have hx : Set.BijOn (fun d => |val T d|) (shapeSet sh nu \ shapeSet sh lam)
        (Set.Icc 1 ((nu.sum - lam.sum : Nat) : Int)) := by
      have h5 := hT.std.1
      have h6 : lam.sum ≤ nu.sum := by omega
      refine ⟨fun d hd => ?_, h5.2.1.mono hsub, fun x hx => ?_⟩
      · have h7 := h5.1 (hsub d hd)
        have h8 : |val T d| ≠ |val T b| := fun h => hbn (h5.2.1 (hsub d hd) hb h ▸ hd)
        simp only [Set.mem_Icc] at h7 ⊢
        simp only at hbv
        omega
      · rw [Set.mem_Icc] at hx
        obtain ⟨d, hd, hdx⟩ := h5.2.2 (show x ∈ Set.Icc 1 ((mu.sum - lam.sum : Nat) : Int) by rw [Set.mem_Icc]; omega)
        refine ⟨d, ?_, hdx⟩
        rw [hD] at hd
        refine hd.resolve_left (fun h => ?_)
        rw [h] at hdx
        simp only at hdx hbv
        omega
    exact hx.congr (fun d hd => by simp only; rw [hval d (fun h => hbn (h ▸ hd))])
  · intro a d h4 h5
    simp only
    rw [hval _ (fun h => hbn (h ▸ h4)), hval _ (fun h => hbn (h ▸ h5))]
    exact hT.std.2.1 a d (hsub _ h4) (hsub _ h5)
  · intro a d h4 h5
    simp only
    rw [hval _ (fun h => hbn (h ▸ h4)), hval _ (fun h => hbn (h ▸ h5))]
    exact hT.std.2.2 a d (hsub _ h4) (hsub _ h5)
  · rw [hval _ (fun h => hbn (h ▸ hd))]
    exact hT.sign d (hsub d hd)
  · simp only at hbv
    omega
  · apply ext_get?
    intro d
    rw [get?_add, get?_del]
    have : (T.del b).ent b = [] := by rw [ent, get?_del, if_pos rfl]; rfl
    rw [this]
    by_cases hdb : d = b
    · rw [if_pos hdb, hdb, hT.get? b, if_pos hb]
      rfl
    · rw [if_neg hdb, if_neg hdb]

theorem stdTab_self {sh : Bool} {ok : Nat × Nat → Int → Prop} {mu : List Nat} {T : Tab} :
    StdTab sh ok mu mu T ↔ T = Tab.empty := by
  constructor
  · intro h
    apply ext_get?
    intro b
    have := h.dom b
    rw [Set.diff_self] at this
    rw [get?_empty]
    simpa using this
  · rintro rfl
    refine ⟨fun b => ?_, fun b s h => ?_, ?_, fun b h => ?_⟩
    · rw [get?_empty, Set.diff_self]
      simp
    · rw [get?_empty] at h
      cases h
    · rw [Set.diff_self, Nat.sub_self]
      refine ⟨⟨fun x h => absurd h (by simp), fun x h => absurd h (by simp), fun x h => ?_⟩, fun i j h => absurd h (by simp),
        fun i j h => absurd h (by simp)⟩
      rw [Set.mem_Icc] at h
      omega
    · rw [Set.diff_self] at h
      exact absurd h (by simp)

/-- The recursion of `_standard` and `_standard_shifted_marked`. -/
def stdGen (sh : Bool) (signs : Nat × Nat → Finset Int) (lam : List Nat) : Nat → List Nat → Finset Tab
  | 0, mu => if mu = lam then {Tab.empty} else ∅
  | fuel + 1, mu =>
    if mu = lam then {Tab.empty}
    else if contains mu lam then
      (List.range mu.length).toFinset.biUnion (fun i =>
        let nu := trim (mu.set i (mu.getD i 0 - 1))
        if (if sh then isStrictPartition nu else isPartition (nu.map (fun a : Nat => (a : Int)))) then
          (stdGen sh signs lam fuel nu).biUnion (fun tab =>
            (signs (i + 1, off sh (i + 1) + mu.getD i 0)).image (fun s =>
              tab.add (i + 1, off sh (i + 1) + mu.getD i 0) (s * ((mu.sum : Int) - lam.sum))))
        else ∅)
    else ∅

theorem isShape_of_check {sh : Bool} {mu : List Nat}
    (h : (if sh then isStrictPartition (trim mu) else isPartition ((trim mu).map (fun a : Nat => (a : Int)))) = true) :
    IsShape sh (trim mu) := by
  have hpos : (trim mu).Pairwise (· ≥ ·) → ∀ a ∈ trim mu, 0 < a := trim_pos_of
  cases sh
  · simp only [Bool.false_eq_true, if_false] at h
    rw [Verif.Symm.isPartition_cast] at h
    exact ⟨h, hpos h⟩
  · simp only [if_true] at h
    rw [isStrictPartition_iff] at h
    exact ⟨h, hpos (h.imp (fun h => le_of_lt h))⟩

theorem isShape_check {sh : Bool} {mu : List Nat} (h : IsShape sh mu) :
    (if sh then isStrictPartition mu else isPartition (mu.map (fun a : Nat => (a : Int)))) = true := by
  cases sh
  · simp only [Bool.false_eq_true, if_false]
    rw [Verif.Symm.isPartition_cast]
    exact h.1
  · simp only [if_true]
    rw [isStrictPartition_iff]
    exact h.1

theorem sum_le_of_subset {sh : Bool} {mu lam : List Nat} (h : shapeSet sh lam ⊆ shapeSet sh mu) : lam.sum ≤ mu.sum := by
  rw [shapeSet_subset] at h
  induction lam generalizing mu with
  | nil => simp
  | cons a l ih =>
    cases mu with
    | nil =>
      have h1 := ih (mu := []) (fun i => by simpa only [List.getD_cons_succ, List.getD_nil] using h (i + 1))
      have h2 := h 0
      rw [List.getD_cons_zero, List.getD_nil] at h2
      rw [List.sum_nil] at h1 ⊢
      rw [List.sum_cons]
      omega
    | cons b m =>
      have h1 := ih (mu := m) (fun i => by simpa only [List.getD_cons_succ, List.getD_nil] using h (i + 1))
      have h2 := h 0
      rw [List.getD_cons_zero, List.getD_cons_zero] at h2
      rw [List.sum_cons, List.sum_cons]
      omega

theorem eq_of_sum_eq {sh : Bool} {mu lam : List Nat} (hm : IsShape sh mu) (hl : IsShape sh lam)
    (h : shapeSet sh lam ⊆ shapeSet sh mu) (hs : mu.sum ≤ lam.sum) : mu = lam := by
  refine row_ext hm.pos hl.pos ?_
  rw [shapeSet_subset] at h
  clear hm hl
  induction lam generalizing mu with
  | nil =>
    intro i
    have h0 : ∀ a ∈ mu, a = 0 := List.sum_eq_zero_iff.1 (by simpa using hs)
    rw [List.getD_nil]
    by_cases hi : i < mu.length
    · rw [List.getD_eq_getElem _ _ hi]
      exact h0 _ (List.getElem_mem _)
    · exact List.getD_eq_default _ _ (by omega)
  | cons a l ih =>
    cases mu with
    | nil =>
      intro i
      have := h i
      rw [List.getD_nil] at this ⊢
      omega
    | cons b m =>
      have h3 := h 0
      have h1 : ∀ i, l.getD i 0 ≤ m.getD i 0 := fun i => by simpa only [List.getD_cons_succ, List.getD_nil] using h (i + 1)
      have h2 := sum_le_of_subset (sh := false) (shapeSet_subset.2 h1)
      rw [List.getD_cons_zero, List.getD_cons_zero] at h3
      rw [List.sum_cons, List.sum_cons] at hs
      intro i
      cases i with
      | zero => rw [List.getD_cons_zero, List.getD_cons_zero]; omega
      | succ i => rw [List.getD_cons_succ, List.getD_cons_succ]; exact ih h1 (by omega) i

theorem mem_stdGen {sh : Bool} {signs : Nat × Nat → Finset Int} (hsg : ∀ b, ∀ s ∈ signs b, s = 1 ∨ s = -1)
    {lam : List Nat} (hl : IsShape sh lam) (fuel : Nat) : ∀ {mu : List Nat}, IsShape sh mu → mu.sum ≤ fuel → ∀ {T : Tab},
      (T ∈ stdGen sh signs lam fuel mu ↔ shapeSet sh lam ⊆ shapeSet sh mu ∧
        StdTab sh (fun b x => ∃ s ∈ signs b, x = s * |x|) lam mu T) := by
  induction fuel with
  | zero =>
    intro mu hm hf T
    rw [stdGen]
    by_cases h : mu = lam
    · subst h
      rw [if_pos rfl, Finset.mem_singleton, stdTab_self]
      exact ⟨fun h => ⟨le_rfl, h⟩, fun h => h.2⟩
    · rw [if_neg h]
      simp only [Finset.notMem_empty, false_iff]
      rintro ⟨h1, -⟩
      exact h (eq_of_sum_eq hm hl h1 (by omega))
  | succ fuel ih =>
    intro mu hm hf T
    rw [stdGen]
    by_cases h : mu = lam
    · subst h
      rw [if_pos rfl, Finset.mem_singleton, stdTab_self]
      exact ⟨fun h => ⟨le_rfl, h⟩, fun h => h.2⟩
    rw [if_neg h]
    by_cases hc : contains mu lam = true
    swap
    · rw [if_neg hc]
      rw [contains_iff hl.pos, ← shapeSet_subset (sh := sh)] at hc
      simp [hc]
    rw [if_pos hc]
    rw [contains_iff hl.pos, ← shapeSet_subset (sh := sh)] at hc
    have hlt : lam.sum < mu.sum := by
      by_contra hs
      exact h (eq_of_sum_eq hm hl hc (by omega))
    rw [Finset.mem_biUnion]
    constructor
    · rintro ⟨i, hi, hT⟩
      rw [List.mem_toFinset, List.mem_range] at hi
      simp only at hT
      by_cases hchk : (if sh then isStrictPartition (trim (mu.set i (mu.getD i 0 - 1))) else
        isPartition ((trim (mu.set i (mu.getD i 0 - 1))).map (fun a : Nat => (a : Int)))) = true
      swap
      · rw [if_neg hchk] at hT
        simp at hT
      rw [if_pos hchk, Finset.mem_biUnion] at hT
      obtain ⟨tab, htab, hT⟩ := hT
      rw [Finset.mem_image] at hT
      obtain ⟨s, hs, rfl⟩ := hT
      have h0 : 0 < mu.getD i 0 := hm.pos _ (by rw [List.getD_eq_getElem _ _ hi]; exact List.getElem_mem _)
      have hr := remove_shape (sh := sh) hi h0 rfl
      have hnu := isShape_of_check hchk
      rw [ih hnu (by omega)] at htab
      refine ⟨hc, stdTab_add hm hi rfl hnu htab.1 (sum_le_of_subset htab.1) htab.2 ?_ ⟨s, hs, ?_⟩⟩
      · rcases hsg _ s hs with rfl | rfl
        · rw [one_mul, abs_of_pos (by omega)]
        · rw [neg_one_mul, abs_neg, abs_of_pos (by omega)]
      · rcases hsg _ s hs with rfl | rfl
        · rw [one_mul, one_mul, abs_of_pos (by omega)]
        · rw [neg_one_mul, neg_one_mul, abs_neg, abs_of_pos (by omega)]
    · rintro ⟨-, hT⟩
      obtain ⟨i, T', v, hi, h1, h2, h3, h4, ⟨s, h5, h6⟩, h7⟩ := stdTab_remove hm hl hc hlt hT
      have h0 : 0 < mu.getD i 0 := hm.pos _ (by rw [List.getD_eq_getElem _ _ hi]; exact List.getElem_mem _)
      have hr := remove_shape (sh := sh) hi h0 rfl
      refine ⟨i, by simpa using hi, ?_⟩
      simp only
      rw [if_pos (isShape_check h1), Finset.mem_biUnion]
      refine ⟨T', (ih h1 (by omega)).2 ⟨h2, h3⟩, ?_⟩
      rw [Finset.mem_image]
      exact ⟨s, h5, by rw [← h4, ← h6, h7]⟩

theorem standardLoop_eq (lam : List Nat) (fuel : Nat) (mu : List Nat) :
    standardLoop lam fuel mu = stdGen false (fun _ => {1}) lam fuel mu := by
  induction fuel generalizing mu with
  | zero => rfl
  | succ fuel ih =>
    rw [standardLoop, stdGen]
    simp only [ih, off, Bool.false_eq_true, if_false, Finset.image_singleton, one_mul, Nat.zero_add,
      Finset.biUnion_singleton]

theorem standardShiftedLoop_eq (dp : Bool) (lam : List Nat) (fuel : Nat) (mu : List Nat) :
    standardShiftedLoop dp lam fuel mu =
      stdGen true (fun b => if dp = true ∨ b.1 ≠ b.2 then {1, -1} else {1}) lam fuel mu := by
  induction fuel generalizing mu with
  | zero => rfl
  | succ fuel ih =>
    rw [standardShiftedLoop, stdGen]
    simp only [ih, off, if_true, Nat.add_sub_cancel]
    congr 2
    refine congrArg _ (funext fun i => ?_)
    congr 2
    funext tab
    split
    · rw [Finset.image_insert, Finset.image_singleton, one_mul, neg_one_mul]
      rfl
    · rw [Finset.image_singleton, one_mul, Finset.union_empty]

end Verif.Tableaux
