import Verif.Lemmas.InvGrassmannian
import Verif.Lemmas.Fpf

/-! The fixed-point-free involutions of Grassmannian shape. -/

namespace Verif.Perm

open Verif.Part Verif.Partition

attribute [-simp] List.getD_eq_getElem?_getD
attribute [local irreducible] mul s inverse identity len

/-- The fixed points in `1, ..., N`. -/
def fixedIn (u : SPerm) (N : Nat) : Finset Nat := (Finset.Icc 1 N).filter (fun x : Nat => u.call x = x)

theorem mem_fixedIn {u : SPerm} {N x : Nat} : x ∈ fixedIn u N ↔ (1 ≤ x ∧ x ≤ N) ∧ u.call x = x := by
  rw [fixedIn, Finset.mem_filter, Finset.mem_Icc]

theorem rank_eq_of_fix {w : SPerm} {N : Nat} (h : ∀ x : Int, (N : Int) < x → w.call x = x) (hN : w.call N ≠ N) : w.rank = N := by
  refine le_antisymm (rank_le_of_fix h) ?_
  by_contra hc
  exact hN ((call_odd w).out _ (by omega))

/-- What the loop does to `u`. -/
structure Filled (u z : SPerm) (N : Nat) : Prop where
  pos : isUnsigned z = true
  inv : ∀ a, z.call (z.call a) = a
  out : ∀ x : Int, (N : Int) < x → z.call x = x
  keep : ∀ x : Int, 0 < x → u.call x ≠ x → z.call x = u.call x
  ne : ∀ x : Int, 0 < x → x ≤ N → z.call x ≠ x
  fix : ∀ x : Int, 0 < x → x ≤ N → u.call x = x → u.call (z.call x) = z.call x
  near : ∀ x i : Int, 0 < x → x ≤ N → u.call x = x → (x < i ∧ i < z.call x ∨ z.call x < i ∧ i < x) → u.call i ≠ i

theorem fillFixed_spec (N : Nat) : ∀ (fuel : Nat) (u : SPerm), isUnsigned u = true → (∀ a, u.call (u.call a) = a) →
    (∀ x : Int, (N : Int) < x → u.call x = x) → u.call N ≠ N → (fixedIn u N).card ≤ fuel → (fixedIn u N).card % 2 = 0 →
    ∃ z, fillFixed fuel u = some z ∧ Filled u z N := by
  have triv : ∀ u : SPerm, isUnsigned u = true → (∀ a, u.call (u.call a) = a) →
      (∀ x : Int, (N : Int) < x → u.call x = x) → fixedIn u N = ∅ → Filled u u N := by
    intro u hu hi hout h0
    have hne : ∀ x : Int, 0 < x → x ≤ N → u.call x ≠ x := by
      intro x h1 h2 h3
      have : x.toNat ∈ fixedIn u N := mem_fixedIn.2 ⟨by omega, by rwa [show ((x.toNat : Nat) : Int) = x by omega]⟩
      rw [h0] at this
      exact absurd this (Finset.notMem_empty _)
    exact ⟨hu, hi, hout, fun _ _ _ => rfl, hne, fun x h1 h2 h3 => absurd h3 (hne x h1 h2), fun x i h1 h2 h3 => absurd h3 (hne x h1 h2)⟩
  intro fuel
  induction fuel with
  | zero =>
    intro u hu hi hout hN hc _
    exact ⟨u, rfl, triv u hu hi hout (Finset.card_eq_zero.1 (by omega))⟩
  | succ fuel ih =>
    intro u hu hi hout hN hc hp
    have hr := rank_eq_of_fix hout hN
    have hfpf : isFpfInvolution u = true ↔ fixedIn u N = ∅ := by
      constructor
      · intro h
        have h1 := isFpf_iff.1 ⟨h, hu⟩
        rw [Finset.eq_empty_iff_forall_notMem]
        intro x hx
        obtain ⟨h2, h3⟩ := mem_fixedIn.1 hx
        exact h1.ne x (by omega) (by omega) h3
      · intro h
        refine (isFpf_iff.2 ⟨hi, call_odd u, isUnsigned_iff.1 hu, fun a h1 h2 => ?_⟩).1
        exact (triv u hu hi hout h).ne a h1 (by omega)
    rw [fillFixed]
    by_cases h0 : fixedIn u N = ∅
    · rw [if_pos (hfpf.2 h0)]
      exact ⟨u, rfl, triv u hu hi hout h0⟩
    · rw [if_neg (fun h => h0 (hfpf.1 h)), hr]
      have hcp := Finset.card_pos.2 (Finset.nonempty_iff_ne_empty.2 h0)
      obtain ⟨L, hL⟩ : ∃ L, (pyRange 1 (N + 2)).filter (fun i : Nat => decide (u.call i = i)) = L := ⟨_, rfl⟩
      have hmem : ∀ x : Nat, x ∈ L ↔ (1 ≤ x ∧ x < N + 2) ∧ u.call x = x := by
        intro x
        rw [← hL, List.mem_filter, mem_pyRange, decide_eq_true_iff]
      have hsort : L.Pairwise (· < ·) := hL ▸ (List.pairwise_lt_range' (pos := by omega)).filter _
      have hsub : fixedIn u N ⊆ L.toFinset := by
        intro x hx
        rw [List.mem_toFinset, hmem]
        have := mem_fixedIn.1 hx
        exact ⟨by omega, this.2⟩
      have hlen : 2 ≤ L.length := by
        have := (Finset.card_le_card hsub).trans (List.toFinset_card_le L)
        omega
      rw [hL]
      match L, hlen with
      | a :: b :: l, _ =>
        simp only
        rw [List.pairwise_cons, List.pairwise_cons] at hsort
        have hab := hsort.1 b (by simp)
        have ha := (hmem a).1 (by simp)
        have hb := (hmem b).1 (by simp)
        have hbig : ∀ x ∈ fixedIn u N, x = a ∨ x = b ∨ b < x := by
          intro x hx
          have := List.mem_toFinset.1 (hsub hx)
          rw [List.mem_cons, List.mem_cons] at this
          rcases this with h | h | h
          · exact Or.inl h
          · exact Or.inr (Or.inl h)
          · exact Or.inr (Or.inr (hsort.2.1 x h))
        have hbN : b ≤ N := by
          by_contra hcb
          have : fixedIn u N ⊆ {a} := by
            intro x hx
            rw [Finset.mem_singleton]
            have h1 := (mem_fixedIn.1 hx).1
            rcases hbig x hx with h | h | h
            · exact h
            · omega
            · omega
          have := Finset.card_le_card this
          rw [Finset.card_singleton] at this
          omega
        have hcall : ∀ x : Int, (mul u (reflectionT a b)).call x = u.call (tFun a b x) := by
          intro x
          rw [call_mul, call_reflectionT (by omega) (by omega)]
        obtain ⟨v, hv⟩ : ∃ v, mul u (reflectionT a b) = v := ⟨_, rfl⟩
        rw [hv] at hcall ⊢
        have va : v.call a = b := by
          rw [hcall, show tFun a b a = b by unfold tFun; (repeat' split) <;> omega, hb.2]
        have vb : v.call b = a := by
          rw [hcall, show tFun a b b = a by unfold tFun; (repeat' split) <;> omega, ha.2]
        have vo : ∀ x : Int, 0 < x → x ≠ a → x ≠ b → v.call x = u.call x := by
          intro x h1 h2 h3
          rw [hcall, show tFun a b x = x by unfold tFun; (repeat' split) <;> omega]
        have uo : ∀ x : Int, x ≠ a → x ≠ b → u.call x ≠ a ∧ u.call x ≠ b := by
          intro x h2 h3
          constructor
          · intro h; have := congrArg u.call h; rw [hi, ha.2] at this; exact h2 this
          · intro h; have := congrArg u.call h; rw [hi, hb.2] at this; exact h3 this
        have hup := isUnsigned_iff.1 hu
        have hNa : (N : Int) ≠ a := by intro h; apply hN; rw [h, ha.2]
        have hNb : (N : Int) ≠ b := by intro h; apply hN; rw [h, hb.2]
        have hset : fixedIn u N = insert a (insert b (fixedIn v N)) := by
          ext x
          rw [Finset.mem_insert, Finset.mem_insert, mem_fixedIn, mem_fixedIn]
          by_cases h1 : x = a
          · subst h1
            exact ⟨fun _ => Or.inl rfl, fun _ => ⟨by omega, ha.2⟩⟩
          · by_cases h2 : x = b
            · subst h2
              exact ⟨fun _ => Or.inr (Or.inl rfl), fun _ => ⟨by omega, hb.2⟩⟩
            · constructor
              · rintro ⟨h3, h4⟩
                exact Or.inr (Or.inr ⟨h3, by rw [vo x (by omega) (by omega) (by omega), h4]⟩)
              · rintro (h | h | ⟨h3, h4⟩)
                · exact absurd h h1
                · exact absurd h h2
                · exact ⟨h3, by rwa [vo x (by omega) (by omega) (by omega)] at h4⟩
        have hcard : (fixedIn u N).card = (fixedIn v N).card + 2 := by
          rw [hset, Finset.card_insert_of_notMem, Finset.card_insert_of_notMem]
          · intro h
            have := (mem_fixedIn.1 h).2
            rw [vb] at this
            omega
          · rw [Finset.mem_insert, not_or]
            refine ⟨by omega, fun h => ?_⟩
            have := (mem_fixedIn.1 h).2
            rw [va] at this
            omega
        obtain ⟨z, hz, hZ⟩ := ih v
          (by
            rw [isUnsigned_iff]
            intro x hx
            by_cases h1 : x = a
            · rw [h1, va]; omega
            · by_cases h2 : x = b
              · rw [h2, vb]; omega
              · rw [vo x hx h1 h2]; exact hup x hx)
          (inv_of_pos (fun x hx => by
            by_cases h1 : x = a
            · rw [h1, va, vb]
            · by_cases h2 : x = b
              · rw [h2, vb, va]
              · rw [vo x hx h1 h2, vo _ (hup x hx) (uo x h1 h2).1 (uo x h1 h2).2, hi]))
          (fun x hx => by rw [vo x (by omega) (by omega) (by omega)]; exact hout x hx)
          (by rw [vo N (by omega) hNa hNb]; exact hN) (by omega) (by omega)
        have za : z.call a = b := by rw [hZ.keep a (by omega) (by rw [va]; omega), va]
        have zb : z.call b = a := by rw [hZ.keep b (by omega) (by rw [vb]; omega), vb]
        have zo : ∀ x : Int, x ≠ a → x ≠ b → z.call x ≠ a ∧ z.call x ≠ b := by
          intro x h2 h3
          constructor
          · intro h; have := congrArg z.call h; rw [hZ.inv, za] at this; exact h3 this
          · intro h; have := congrArg z.call h; rw [hZ.inv, zb] at this; exact h2 this
        have hbigI : ∀ x : Int, 0 < x → x ≤ N → u.call x = x → x = a ∨ x = b ∨ b < x := by
          intro x h1 h2 h3
          rcases hbig x.toNat (mem_fixedIn.2 ⟨by omega, by rwa [show ((x.toNat : Nat) : Int) = x by omega]⟩) with h | h | h <;> omega
        refine ⟨z, hz, hZ.pos, hZ.inv, hZ.out, fun x hx hne => ?_, hZ.ne, fun x h1 h2 h3 => ?_, fun x i h1 h2 h3 h4 => ?_⟩
        · have h1 : x ≠ a := by rintro rfl; exact hne ha.2
          have h2 : x ≠ b := by rintro rfl; exact hne hb.2
          have := vo x hx h1 h2
          rw [hZ.keep x hx (by rw [this]; exact hne), this]
        · by_cases e1 : x = a
          · rw [e1, za, hb.2]
          · by_cases e2 : x = b
            · rw [e2, zb, ha.2]
            · have := hZ.fix x h1 h2 (by rw [vo x h1 e1 e2, h3])
              rwa [vo _ (isUnsigned_iff.1 hZ.pos x h1) (zo x e1 e2).1 (zo x e1 e2).2] at this
        · intro hui
          have hip : 0 < i := by
            have := isUnsigned_iff.1 hZ.pos x h1
            omega
          have hiN : i ≤ N := by
            by_contra hcN
            rcases h4 with h4 | h4
            · have := hZ.inv x
              rw [hZ.out (z.call x) (by omega)] at this
              omega
            · omega
          by_cases e1 : x = a
          · rw [e1, za] at h4
            rcases hbigI i hip hiN hui with h | h | h <;> omega
          · by_cases e2 : x = b
            · rw [e2, zb] at h4
              rcases hbigI i hip hiN hui with h | h | h <;> omega
            · have hx := hbigI x h1 h2 h3
              have hzx : (b : Int) < z.call x := by
                have h5 := hZ.fix x h1 h2 (by rw [vo x h1 e1 e2, h3])
                rw [vo _ (isUnsigned_iff.1 hZ.pos x h1) (zo x e1 e2).1 (zo x e1 e2).2] at h5
                have h6 : z.call x ≤ N := by
                  by_contra hcN
                  have h7 := hZ.inv x
                  rw [hZ.out (z.call x) (by omega)] at h7
                  omega
                have h8 := hbigI (z.call x) (isUnsigned_iff.1 hZ.pos x h1) h6 h5
                have := zo x e1 e2
                omega
              refine hZ.near x i h1 h2 (by rw [vo x h1 e1 e2, h3]) h4 ?_
              rw [vo i hip (by omega) (by omega), hui]

theorem getFpfGrassmannian_spec {mu : List Nat} (hmu : IsStrict mu) :
    ∃ y, getFpfGrassmannian mu = some y ∧ IsInvGr y 1 mu ∧ isFpfInvolution y = true ∧
      y.rank = if mu = [] then 0 else 2 * ((mu.length + mu.headD 0 + 2) / 2) := by
  by_cases hnil : mu = []
  · subst hnil
    refine ⟨identity, by decide +kernel, ⟨by decide +kernel, fun a => by rw [call_identity, call_identity], fun k hk => by simp at hk, fun x i _ h1 h2 => ?_⟩, by decide +kernel, by decide +kernel⟩
    rw [call_identity] at h2
    omega
  rw [if_neg hnil]
  obtain ⟨m, hm⟩ : ∃ m, mu.headD 0 = m := ⟨_, rfl⟩
  obtain ⟨o, ho⟩ : ∃ o, (if mu ≠ [] ∧ (mu.length + 1 + m) % 2 ≠ 0 then 1 else 0) = o := ⟨_, rfl⟩
  have ho' : o ≤ 1 ∧ (o + 1 + mu.length + m) % 2 = 0 := by
    rw [← ho]
    by_cases h : (mu.length + 1 + m) % 2 ≠ 0
    · rw [if_pos ⟨hnil, h⟩]; omega
    · rw [if_neg (fun h' => h h'.2)]; omega
  have hl := List.length_pos_iff.2 hnil
  obtain ⟨N, hN⟩ : ∃ N, o + 1 + mu.length + m = N := ⟨_, rfl⟩
  obtain ⟨w0, hw, hw0⟩ := longestUnsigned?_spec N
  have hle : ∀ k, mu.getD k 0 ≤ m := fun k => hm ▸ getD_le_head hmu k
  have hinj : ∀ i < mu.length, ∀ j < mu.length, mu.getD i 0 = mu.getD j 0 → i = j := by
    intro i hi j hj he
    rcases lt_trichotomy i j with h1 | h1 | h1
    · have := strict_getD hmu h1 hj; omega
    · exact h1
    · have := strict_getD hmu h1 hi; omega
  have hf := foldl_swaps (fun i => o + 1 + m - mu.getD i 0) (fun i => o + i + 2 + m) mu.length
    (fun i hi => by have := hle i; omega) (fun i hi => by omega)
    (fun i hi j hj he => hinj i hi j hj (by have := hle i; have := hle j; omega)) (fun i hi j hj he => by omega)
    (fun i hi j hj => by have := strict_pos hmu hi; omega)
  obtain ⟨u, hu⟩ : ∃ u, (List.range mu.length).foldl (fun a i => mul a (reflectionT (o + 1 + m - mu.getD i 0) (o + i + 2 + m))) identity = u :=
    ⟨_, rfl⟩
  rw [hu] at hf
  obtain ⟨hf1, hf2⟩ := hf
  have hcase : ∀ x : Int, 0 < x → (∃ k < mu.length, x = (o + 1 + m - mu.getD k 0 : Nat) ∧ u.call x = (o + k + 2 + m : Nat)) ∨
      (∃ k < mu.length, x = (o + k + 2 + m : Nat) ∧ u.call x = (o + 1 + m - mu.getD k 0 : Nat)) ∨
      ((∀ k < mu.length, x ≠ (o + 1 + m - mu.getD k 0 : Nat) ∧ x ≠ (o + k + 2 + m : Nat)) ∧ u.call x = x) := by
    intro x hx
    by_cases h1 : ∃ k < mu.length, x = (o + 1 + m - mu.getD k 0 : Nat)
    · obtain ⟨k, hk, rfl⟩ := h1
      exact Or.inl ⟨k, hk, rfl, (hf1 k hk).1⟩
    · by_cases h2 : ∃ k < mu.length, x = (o + k + 2 + m : Nat)
      · obtain ⟨k, hk, rfl⟩ := h2
        exact Or.inr (Or.inl ⟨k, hk, rfl, (hf1 k hk).2⟩)
      · push Not at h1 h2
        exact Or.inr (Or.inr ⟨fun k hk => ⟨h1 k hk, h2 k hk⟩, hf2 x hx (fun k hk => ⟨h1 k hk, h2 k hk⟩)⟩)
  have hupos : isUnsigned u = true := by
    rw [isUnsigned_iff]
    intro x hx
    rcases hcase x hx with ⟨k, hk, -, h2⟩ | ⟨k, hk, -, h2⟩ | ⟨-, h2⟩
    · rw [h2]; omega
    · rw [h2]; have := hle k; omega
    · rw [h2]; exact hx
  have huinv : ∀ a, u.call (u.call a) = a := inv_of_pos (fun x hx => by
    rcases hcase x hx with ⟨k, hk, h1, h2⟩ | ⟨k, hk, h1, h2⟩ | ⟨-, h2⟩
    · rw [h2, (hf1 k hk).2, h1]
    · rw [h2, (hf1 k hk).1, h1]
    · rw [h2, h2])
  have huout : ∀ x : Int, (N : Int) < x → u.call x = x := by
    intro x hx
    refine hf2 x (by omega) (fun k hk => ?_)
    constructor <;> omega
  have huN : u.call N ≠ N := by
    have := (hf1 (mu.length - 1) (by omega)).2
    rw [show o + (mu.length - 1) + 2 + m = N by omega] at this
    rw [this]
    have := hle (mu.length - 1)
    omega
  have hsplit : Finset.Icc 1 N = fixedIn u N ∪ ((Finset.range mu.length).image (fun i => o + 1 + m - mu.getD i 0) ∪
      (Finset.range mu.length).image (fun i => o + i + 2 + m)) := by
    ext x
    rw [Finset.mem_union, Finset.mem_union, mem_fixedIn, Finset.mem_Icc, Finset.mem_image, Finset.mem_image]
    constructor
    · intro hx
      rcases hcase x (by omega) with ⟨k, hk, h1, h2⟩ | ⟨k, hk, h1, h2⟩ | ⟨-, h2⟩
      · exact Or.inr (Or.inl ⟨k, Finset.mem_range.2 hk, by omega⟩)
      · exact Or.inr (Or.inr ⟨k, Finset.mem_range.2 hk, by omega⟩)
      · exact Or.inl ⟨hx, h2⟩
    · rintro (h | ⟨k, hk, rfl⟩ | ⟨k, hk, rfl⟩)
      · exact h.1
      · rw [Finset.mem_range] at hk; have := hle k; omega
      · rw [Finset.mem_range] at hk; omega
  have hcard : (fixedIn u N).card + 2 * mu.length = N := by
    have hc := congrArg Finset.card hsplit
    rw [Finset.card_union_of_disjoint, Finset.card_union_of_disjoint, Finset.card_image_of_injOn, Finset.card_image_of_injOn,
      Finset.card_range, Nat.card_Icc] at hc
    · omega
    · intro a _ b _ hab
      simp only at hab
      omega
    · intro a ha b hb hab
      rw [Finset.coe_range, Set.mem_Iio] at ha hb
      simp only at hab
      exact hinj a ha b hb (by have := hle a; have := hle b; omega)
    · rw [Finset.disjoint_left]
      intro x h1 h2
      obtain ⟨k, hk, rfl⟩ := Finset.mem_image.1 h1
      obtain ⟨l, hl', he⟩ := Finset.mem_image.1 h2
      have := hle k
      omega
    · rw [Finset.disjoint_left]
      intro x h1 h2
      have h3 := (mem_fixedIn.1 h1).2
      rcases Finset.mem_union.1 h2 with h2 | h2
      · obtain ⟨k, hk, rfl⟩ := Finset.mem_image.1 h2
        rw [Finset.mem_range] at hk
        rw [(hf1 k hk).1] at h3
        omega
      · obtain ⟨k, hk, rfl⟩ := Finset.mem_image.1 h2
        rw [Finset.mem_range] at hk
        rw [(hf1 k hk).2] at h3
        omega
  obtain ⟨z, hz, hZ⟩ := fillFixed_spec N (mu.length + m + 3) u hupos huinv huout huN (by omega) (by omega)
  have hy : getFpfGrassmannian mu = some (mul (mul w0 z) w0) := by
    rw [getFpfGrassmannian, if_pos ((isStrictPartition_iff mu).2 hmu.1), hm]
    simp only
    rw [ho, hu, hz, Option.bind_some, hN, longestElement?, if_neg (by simp), hw]
    rfl
  obtain ⟨y, hye⟩ : ∃ y, mul (mul w0 z) w0 = y := ⟨_, rfl⟩
  rw [hye] at hy
  have hc : ∀ x, y.call x = revFun N (z.call (revFun N x)) := fun x => hye ▸ conj_rev hw0 z x
  have hzle : ∀ x : Int, 0 < x → x ≤ N → 0 < z.call x ∧ z.call x ≤ N := by
    intro x h1 h2
    refine ⟨isUnsigned_iff.1 hZ.pos x h1, ?_⟩
    by_contra hcN
    have h7 := hZ.inv x
    rw [hZ.out (z.call x) (by omega)] at h7
    omega
  have hin : ∀ x : Int, 0 < x → x ≤ N → y.call x = (N : Int) + 1 - z.call ((N : Int) + 1 - x) := by
    intro x h1 h2
    have e1 : revFun N x = (N : Int) + 1 - x := by unfold revFun; rw [if_pos ⟨h1, h2⟩]
    have := hzle ((N : Int) + 1 - x) (by omega) (by omega)
    rw [hc, e1, revFun, if_pos this]
  have hyout : ∀ x : Int, (N : Int) < x → y.call x = x := by
    intro x hx
    have e1 : revFun N x = x := by unfold revFun; (repeat' split) <;> omega
    rw [hc, e1, hZ.out x hx, e1]
  have hypos : isUnsigned y = true := by
    rw [isUnsigned_iff]
    intro x hx
    by_cases h1 : x ≤ N
    · have := hzle ((N : Int) + 1 - x) (by omega) (by omega)
      rw [hin x hx h1]; omega
    · rw [hyout x (by omega)]; exact hx
  have hyinv : ∀ a, y.call (y.call a) = a := inv_of_pos (fun x hx => by
    by_cases h1 : x ≤ N
    · have h2 := hzle ((N : Int) + 1 - x) (by omega) (by omega)
      rw [hin x hx h1, hin _ (by omega) (by omega), show (N : Int) + 1 - (N + 1 - z.call (N + 1 - x)) = z.call (N + 1 - x) by omega,
        hZ.inv]
      omega
    · rw [hyout x (by omega), hyout x (by omega)])
  have hyne : ∀ x : Int, 0 < x → x ≤ N → y.call x ≠ x := by
    intro x h1 h2 h3
    rw [hin x h1 h2] at h3
    exact hZ.ne ((N : Int) + 1 - x) (by omega) (by omega) (by omega)
  have hrank : y.rank = N := rank_eq_of_fix hyout (hyne N (by omega) le_rfl)
  have hval : ∀ k < mu.length, y.call ((mu.length : Int) - k) = mu.length + (1 : Nat) + mu.getD k 0 := by
    intro k hk
    have := hle k
    have e1 := (hf1 k hk).2
    rw [hin _ (by omega) (by omega), show (N : Int) + 1 - (mu.length - k) = (o + k + 2 + m : Nat) by omega,
      hZ.keep _ (by omega) (by rw [e1]; omega), e1]
    omega
  refine ⟨y, hy, ⟨hypos, hyinv, hval, ?_⟩, (isFpf_iff.2 ⟨hyinv, call_odd y, isUnsigned_iff.1 hypos, fun a h1 h2 => hyne a h1 (by omega)⟩).1, ?_⟩
  · intro x i hx hxi hi
    have hxN : x ≤ N := by
      by_contra hcx
      rw [hyout x (by omega)] at hi
      omega
    have hz1 := hzle ((N : Int) + 1 - x) (by omega) (by omega)
    rw [hin x (by omega) hxN] at hi
    by_contra hcs
    push Not at hcs
    have ufix : ∀ j : Int, (mu.length : Int) < j → j ≤ N → (∀ k < mu.length, j ≠ mu.length + (1 : Nat) + mu.getD k 0) →
        u.call ((N : Int) + 1 - j) = (N : Int) + 1 - j := by
      intro j h1 h2 h3
      refine hf2 _ (by omega) (fun k hk => ?_)
      have := h3 k hk
      have := hle k
      constructor <;> omega
    have hxs : ∀ k < mu.length, x ≠ mu.length + (1 : Nat) + mu.getD k 0 := by
      intro k hk hxe
      have h1 := hyinv ((mu.length : Int) - k)
      rw [hval k hk, ← hxe, hin x (by omega) hxN] at h1
      omega
    exact hZ.near ((N : Int) + 1 - x) ((N : Int) + 1 - i) (by omega) (by omega) (ufix x hx hxN hxs) (Or.inr ⟨by omega, by omega⟩)
      (ufix i (by omega) (by omega) hcs)
  · rw [hrank, hm]
    omega

end Verif.Perm
