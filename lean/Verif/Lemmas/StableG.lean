import Verif.Lemmas.HeckeFactor
import Verif.Lemmas.HeckeRun
import Verif.Lemmas.SymGen
import Verif.Lemmas.WordsZeta

/-!
# The sum over the words and its symmetrization
-/

attribute [-simp] List.getD_eq_getElem?_getD

namespace Verif.Perm

open Verif.Symm Verif.Part

/-! ### symmetrize -/

theorem sortDesc_perm (t : List Nat) : (sortDesc t).Perm t :=
  (List.reverse_perm _).trans (List.perm_insertionSort _ _)

theorem sortDesc_sorted (t : List Nat) : (sortDesc t).Pairwise (· ≥ ·) := by
  rw [sortDesc, List.pairwise_reverse]
  exact List.pairwise_insertionSort (· ≤ ·) t

theorem sortDesc_eq_iff {t u : List Nat} (hu : u.Pairwise (· ≥ ·)) : sortDesc t = u ↔ t.Perm u := by
  constructor
  · rintro rfl; exact (sortDesc_perm t).symm
  · intro h
    exact List.Perm.eq_of_pairwise (fun _ _ _ _ h1 h2 => le_antisymm h2 h1) (sortDesc_sorted t) hu
      ((sortDesc_perm t).trans h)

theorem pyMax_const {gt : PolyVal → PolyVal → Bool} {l : List PolyVal} {c : PolyVal} (hl : l ≠ []) (h : ∀ x ∈ l, x = c) :
    pyMax gt l = some c := by
  cases l with
  | nil => exact absurd rfl hl
  | cons x l =>
    rw [pyMax]
    have hx := h x (by simp)
    subst hx
    have : ∀ l : List PolyVal, (∀ y ∈ l, y = x) → l.foldl (fun m y => if gt y m then y else m) x = x := by
      intro l
      induction l with
      | nil => intro _; rfl
      | cons y l ih =>
        intro h
        rw [List.foldl_cons, h y (by simp), ite_self]
        exact ih (fun z hz => h z (by simp [hz]))
    rw [this l (fun y hy => h y (by simp [hy]))]

theorem symmetrize_spec (gt : PolyVal → PolyVal → Bool) (v : Vec (List Nat) PolyVal) (n : Nat) (hv : Vec.NoZero v)
    (hpos : ∀ a, v.get a ≠ 0 → ∀ x ∈ a, 0 < x)
    (hsym : ∀ a b : List Nat, a.length ≤ n → a.Perm b → v.get a = v.get b) :
    ∃ F, symmetrize gt v n = .ok F ∧ IsSym n F ∧
      ∀ mu, F.get mu = if mu.Pairwise (· ≥ ·) ∧ mu.length ≤ n then v.get mu else 0 := by
  have hk := Vec.mem_keys_iff hv
  have h1 : ∀ (l : List (List Nat)) (d : Dict (List Nat) PolyVal),
      (∀ a ∈ l, a ∈ v.dict.keys ∧ a.Pairwise (· ≥ ·) ∧ a.length ≤ n) →
      l.foldlM (symmetrizeStep gt v n) d = .ok (l.foldl (fun d a => d.set a (v.get a)) d) := by
    intro l
    induction l with
    | nil => intro d _; rfl
    | cons a l ih =>
      intro d h
      obtain ⟨ha1, ha2, ha3⟩ := h a (by simp)
      have hpart : IsPartition a := ⟨ha2, hpos a ((hk a).1 ha1)⟩
      have hstep : symmetrizeStep gt v n d a = .ok (d.set a (v.get a)) := by
        rw [symmetrizeStep, mkMono, if_pos ha3, sortTrim_self hpart]
        simp only
        rw [pyMax_const (c := v.get a)]
        · intro h0
          rw [List.map_eq_nil_iff, List.filter_eq_nil_iff] at h0
          exact absurd (h0 a ha1) (by simp)
        · intro x hx
          rw [List.mem_map] at hx
          obtain ⟨b, hb, rfl⟩ := hx
          rw [List.mem_filter, decide_eq_true_eq] at hb
          have hp : a.Perm b := ((sortDesc_perm a).symm.trans (by rw [hb.2])).trans (sortDesc_perm b)
          exact (hsym a b ha3 hp).symm
      rw [List.foldlM_cons, hstep, List.foldl_cons]
      exact ih _ (fun b hb => h b (by simp [hb]))
  have h2 : ∀ (l : List (List Nat)), (∀ a ∈ l, a ∈ v.dict.keys ∧ a.length ≤ n) →
      l.foldlM (symmetrizeCheck v) () = .ok () := by
    intro l
    induction l with
    | nil => intro _; rfl
    | cons a l ih =>
      intro h
      obtain ⟨ha1, ha3⟩ := h a (by simp)
      have hs := hsym a (sortDesc a) ha3 (sortDesc_perm a).symm
      have hmem : sortDesc a ∈ v.dict.keys := by rw [hk, ← hs, ← hk]; exact ha1
      obtain ⟨x, hx⟩ := Dict.mem_keys.1 hmem
      have hget : v.get (sortDesc a) = x := by rw [Vec.get, Dict.getD, hx]; rfl
      have hstep : symmetrizeCheck v () a = .ok () := by
        rw [symmetrizeCheck, hx]
        simp only
        rw [if_pos (by rw [hs, hget])]
      rw [List.foldlM_cons, hstep]
      exact ih (fun b hb => h b (by simp [hb]))
  obtain ⟨l, hl⟩ : ∃ l, v.dict.keys.filter (fun alpha => decide (sortDesc alpha = alpha ∧ alpha.length ≤ n)) = l := ⟨_, rfl⟩
  have hmem : ∀ a, a ∈ l ↔ a ∈ v.dict.keys ∧ a.Pairwise (· ≥ ·) ∧ a.length ≤ n := by
    intro a
    rw [← hl, List.mem_filter, decide_eq_true_eq]
    constructor
    · rintro ⟨h1, h2, h3⟩; exact ⟨h1, by rw [← h2]; exact sortDesc_sorted a, h3⟩
    · rintro ⟨h1, h2, h3⟩; exact ⟨h1, (sortDesc_eq_iff h2).2 (List.Perm.refl _), h3⟩
  refine ⟨mkSym n (l.foldl (fun d a => d.set a (v.get a)) Dict.empty), ?_, ?_, ?_⟩
  · rw [symmetrize, hl, h1 l _ (fun a ha => (hmem a).1 ha)]
    show (do let _ ← List.foldlM (symmetrizeCheck v) () _; pure _ : Except Raised SymPoly) = _
    rw [h2]
    · rfl
    · intro a ha
      rw [List.mem_filter, decide_eq_true_eq] at ha
      exact ha
  · apply isSym_mkSym
    intro k hk'
    have := (hmem k).1 (keys_fromKeys (f := v.get) hk')
    exact ⟨⟨this.2.1, hpos k ((hk k).1 this.1)⟩, this.2.2⟩
  · intro mu
    have : (mkSym n (l.foldl (fun d a => d.set a (v.get a)) Dict.empty)).get mu =
      (l.foldl (fun d a => d.set a (v.get a)) Dict.empty).getD mu 0 := Vec.get_mk' _ _ _
    rw [this, Vec.getD_foldl_set]
    by_cases h : mu ∈ l
    · rw [if_pos h, if_pos ((hmem mu).1 h).2]
    · rw [if_neg h]
      by_cases h' : mu.Pairwise (· ≥ ·) ∧ mu.length ≤ n
      · rw [if_pos h']
        by_contra hne
        apply h
        rw [hmem, hk]
        exact ⟨fun h0 => hne (by rw [h0]; rfl), h'⟩
      · rw [if_neg h']; rfl

/-! ### the sum over the words -/

/-- The coefficient of `alpha` in `quasisymmetrize(w, zeta)`. -/
noncomputable def qcoeff (zeta : List Int → Int) (α w : List Nat) : Int :=
  if (∀ a ∈ α, 0 < a) ∧ α.sum = w.length then ((α.splitLengths w).map (fun u => zeta (u.map (fun a : Nat => (a : Int))))).prod else 0

theorem splitLengths_map {A B : Type*} (f : A → B) (α : List Nat) (w : List A) :
    α.splitLengths (w.map f) = (α.splitLengths w).map (List.map f) := by
  induction α generalizing w with
  | nil => rfl
  | cons a α ih => rw [List.splitLengths_cons, List.splitLengths_cons, List.map_cons, ← List.map_drop, ih, List.map_take]

theorem sumStep_spec (zeta : List Int → Int) (ell : Int) (v : Vec (List Nat) PolyVal) (hv : Vec.NoZero v) (w : List Nat) :
    ∃ v', sumStep zeta ell v w = .ok v' ∧ Vec.NoZero v' ∧
      ∀ α, (v'.get α).den = (v.get α).den + Laurent.xpow 0 ((w.length : Int) - ell) * ((qcoeff zeta α w : Int) : Laurent) := by
  obtain ⟨b, hb, hd⟩ := pow_beta ((w.length : Int) - ell)
  refine ⟨_, by rw [sumStep, hb], Vec.noZero_add hv, fun α => ?_⟩
  rw [Vec.get_add, Vec.get_smul, Vec.get_mk', PolyVal.den_add, PolyVal.den_mul, PolyVal.den_mk, hd, mul_comm]
  congr 2
  rw [← PolyVal.den_intCast]
  congr 1
  have h1 := Words.getD_quasi zeta (w.map (fun a : Nat => (a : Int))) α
  rw [splitLengths_map, List.map_map, List.length_map] at h1
  unfold qcoeff
  rw [show (fun u : List Nat => zeta (u.map (fun a : Nat => (a : Int)))) = zeta ∘ List.map (fun a : Nat => (a : Int)) from rfl, ← h1]
  unfold Dict.getD
  rw [Dict.get?_mapVal]
  cases (Words.quasisymmetrize zeta (w.map (fun a : Nat => (a : Int)))).get? α with
  | none => simp
  | some x => simp

theorem sumFold_spec (zeta : List Int → Int) (ell : Int) (ws : List (List Nat)) (v : Vec (List Nat) PolyVal) (hv : Vec.NoZero v) :
    ∃ v', ws.foldlM (sumStep zeta ell) v = .ok v' ∧ Vec.NoZero v' ∧
      ∀ α, (v'.get α).den = (v.get α).den +
        (ws.map (fun w => Laurent.xpow 0 ((w.length : Int) - ell) * ((qcoeff zeta α w : Int) : Laurent))).sum := by
  induction ws generalizing v with
  | nil => exact ⟨v, rfl, hv, fun α => by simp⟩
  | cons w ws ih =>
    obtain ⟨v1, h1, h2, h3⟩ := sumStep_spec zeta ell v hv w
    obtain ⟨v2, h4, h5, h6⟩ := ih v1 h2
    refine ⟨v2, ?_, h5, fun α => ?_⟩
    · rw [List.foldlM_cons, h1]; exact h4
    · rw [h6, h3, List.map_cons, List.sum_cons, add_assoc]

theorem sum_wordsOf (K : LevelKind) (w : SPerm) (m : Nat) (zeta : List Int → Int) (ell : Int) (α : List Nat) :
    ((wordsOf w ((List.range m).map K.level)).map
      (fun u => Laurent.xpow 0 ((u.length : Int) - ell) * ((qcoeff zeta α u : Int) : Laurent))).sum =
    if α.sum < m then Laurent.xpow 0 ((α.sum : Int) - ell) *
      (((((K.level α.sum).filter (fun p => decide (w = p.1))).map (fun p => qcoeff zeta α p.2)).sum : Int) : Laurent) else 0 := by
  have hlev : ∀ t, (((K.level t).filter (fun p => decide (w = p.1))).map Prod.snd |>.map
      (fun u => Laurent.xpow 0 ((u.length : Int) - ell) * ((qcoeff zeta α u : Int) : Laurent))).sum =
      if t = α.sum then Laurent.xpow 0 ((α.sum : Int) - ell) *
      (((((K.level α.sum).filter (fun p => decide (w = p.1))).map (fun p => qcoeff zeta α p.2)).sum : Int) : Laurent) else 0 := by
    intro t
    by_cases ht : t = α.sum
    · rw [if_pos ht, ← ht]
      have hlen : ∀ p ∈ (K.level t).filter (fun p => decide (w = p.1)), p.2.length = t := by
        intro p hp
        exact (((K.level_spec t).2 p.1 p.2).1 (List.mem_of_mem_filter hp)).1
      generalize (K.level t).filter (fun p => decide (w = p.1)) = L at hlen
      clear ht
      induction L with
      | nil => simp
      | cons p L ih =>
        simp only [List.map_cons, List.sum_cons, Int.cast_add, mul_add]
        rw [ih (fun q hq => hlen q (by simp [hq])), hlen p (by simp)]
    · rw [if_neg ht]
      apply List.sum_eq_zero
      intro x hx
      simp only [List.mem_map] at hx
      obtain ⟨u, ⟨p, hp, rfl⟩, rfl⟩ := hx
      have := (((K.level_spec t).2 p.1 p.2).1 (List.mem_of_mem_filter hp)).1
      rw [qcoeff, if_neg (by rintro ⟨-, h⟩; omega)]
      simp
  induction m with
  | zero => simp [wordsOf]
  | succ m ih =>
    rw [wordsOf] at ih ⊢
    rw [List.range_succ, List.map_append, List.flatMap_append, List.map_append, List.sum_append, ih, List.map_singleton,
      List.flatMap_singleton, hlev]
    by_cases h1 : α.sum < m
    · rw [if_pos h1, if_neg (by omega), if_pos (by omega), add_zero]
    · rw [if_neg h1, zero_add]
      by_cases h2 : m = α.sum
      · rw [if_pos h2, if_pos (by omega)]
      · rw [if_neg h2, if_neg (by omega)]

/-- The sum over the words of one level is the number of factorizations. -/
theorem sum_level (K : LevelKind) (w : SPerm) (zeta : List Int → Int) {X Y : Type} (g : X → Nat → X) (wd : Y → List Nat)
    (W : List Y) {ls : List Nat} (hls : ls.Nodup) (hW : ∀ y ∈ W, ∀ i ∈ wd y, i ∈ ls) (x0 z : X)
    (hz : ∀ a : List Nat, (∀ i ∈ a, i ∈ ls) → zeta (a.map (fun i : Nat => (i : Int))) = ((W.map wd).count a : ℤ))
    (hreach : ∀ u, (∀ i ∈ u, i ∈ K.letters) ∧ K.reach K.start u = some w ↔ (∀ i ∈ u, i ∈ ls) ∧ u.foldl g x0 = z)
    {α : List Nat} (hα : ∀ a ∈ α, 0 < a)
    (hok : ∀ u : List Nat, u.length = α.sum → (∀ s ∈ α.splitLengths u, zeta (s.map (fun i : Nat => (i : Int))) ≠ 0) →
      ∀ v, v <+: u → v ≠ [] → K.ok v = true) :
    (((K.level α.sum).filter (fun p => decide (w = p.1))).map (fun p => qcoeff zeta α p.2)).sum = (YB.cnt g wd W z x0 α : ℤ) := by
  classical
  rw [YB.cnt_eq_sum g wd W hls hW (fun a => zeta (a.map (fun i : Nat => (i : Int)))) hz]
  obtain ⟨hn, hm⟩ := K.level_spec α.sum
  have h1 : (((K.level α.sum).filter (fun p => decide (w = p.1))).map (fun p => qcoeff zeta α p.2)).sum =
      ((((K.level α.sum).filter (fun p => decide (w = p.1))).map Prod.snd).map (qcoeff zeta α)).sum := by
    rw [List.map_map]; rfl
  have hn1 : (((K.level α.sum).filter (fun p => decide (w = p.1))).map Prod.snd).Nodup := by
    refine List.Nodup.map_on ?_ (hn.filter _)
    intro p hp q hq hpq
    have h1 := of_decide_eq_true (List.mem_filter.1 hp).2
    have h2 := of_decide_eq_true (List.mem_filter.1 hq).2
    exact Prod.ext (h1.symm.trans h2) hpq
  rw [h1, ← List.sum_toFinset _ hn1, ← List.sum_toFinset _ (YB.nodup_allWords hls α.sum)]
  have hmem : ∀ u, u ∈ ((K.level α.sum).filter (fun p => decide (w = p.1))).map Prod.snd ↔
      u.length = α.sum ∧ (∀ v, v <+: u → v ≠ [] → K.ok v = true) ∧ (∀ i ∈ u, i ∈ ls) ∧ u.foldl g x0 = z := by
    intro u
    rw [List.mem_map]
    constructor
    · rintro ⟨p, hp, rfl⟩
      rw [List.mem_filter, decide_eq_true_eq] at hp
      have := (hm p.1 p.2).1 hp.1
      refine ⟨this.1, this.2.2.1, (hreach p.2).1 ⟨this.2.1, ?_⟩⟩
      rw [hp.2]; exact this.2.2.2
    · rintro ⟨h1, h2, h3⟩
      have := (hreach u).2 h3
      exact ⟨(w, u), List.mem_filter.2 ⟨(hm w u).2 ⟨h1, this.1, h2, this.2⟩, by simp⟩, rfl⟩
  apply Finset.sum_subset_zero_on_sdiff
  · intro u hu
    rw [List.mem_toFinset, hmem] at hu
    rw [List.mem_toFinset, YB.mem_allWords]
    exact ⟨hu.1, hu.2.2.1⟩
  · intro u hu
    rw [Finset.mem_sdiff, List.mem_toFinset, List.mem_toFinset, YB.mem_allWords, hmem] at hu
    obtain ⟨⟨h1, h2⟩, h3⟩ := hu
    by_cases h4 : u.foldl g x0 = z
    · rw [if_pos h4]
      by_contra hne
      apply h3
      refine ⟨h1, hok u h1 ?_, h2, h4⟩
      intro s hs h0
      apply hne
      exact List.prod_eq_zero (List.mem_map.2 ⟨s, hs, h0⟩)
    · rw [if_neg h4]
  · intro u hu
    rw [List.mem_toFinset, hmem] at hu
    rw [if_pos hu.2.2.2, qcoeff, if_pos ⟨hα, hu.1.symm⟩]

open scoped Classical in
/-- What the four methods compute. -/
theorem sumWords_spec (gt : PolyVal → PolyVal → Bool) (K : LevelKind) (w : SPerm) (zeta : List Int → Int) (ell : Int) (n : Nat)
    {X Y : Type} (g : X → Nat → X) (wd : Y → List Nat)
    (W : List Y) {ls : List Nat} (hls : ls.Nodup) (hW : ∀ y ∈ W, ∀ i ∈ wd y, i ∈ ls) (x0 z : X)
    (hz : ∀ a : List Nat, (∀ i ∈ a, i ∈ ls) → zeta (a.map (fun i : Nat => (i : Int))) = ((W.map wd).count a : ℤ))
    (hreach : ∀ u, (∀ i ∈ u, i ∈ K.letters) ∧ K.reach K.start u = some w ↔ (∀ i ∈ u, i ∈ ls) ∧ u.foldl g x0 = z)
    (hok : ∀ α : List Nat, (∀ a ∈ α, 0 < a) → α.length ≤ n → ∀ u : List Nat, u.length = α.sum →
      (∀ s ∈ α.splitLengths u, zeta (s.map (fun i : Nat => (i : Int))) ≠ 0) →
      ∀ v, v <+: u → v ≠ [] → K.ok v = true)
    (hperm : ∀ α β : List Nat, α.Perm β → YB.cnt g wd W z x0 α = YB.cnt g wd W z x0 β)
    {T : Nat} (hT : K.level T = []) {fuel : Nat} (hf : T < fuel) (bound : Option Int) {L : List Level} (hL : K.Good L) :
    ∃ F L', sumWords gt K zeta ell w n bound fuel L = .ok (F, L') ∧ IsSym n F ∧
      ∀ mu, (F.get mu).den = if IsPartition mu ∧ mu.length ≤ n ∧ (bound.getD (-1) < 0 ∨ (mu.sum : Int) ≤ bound.getD (-1)) then
        Laurent.xpow 0 ((mu.sum : Int) - ell) * ((YB.cnt g wd W z x0 mu : ℤ) : Laurent) else 0 := by
  obtain ⟨m, L', h1, -, h3⟩ := K.run_spec T hT hf bound hL
  obtain ⟨v, h4, h5, h6⟩ := sumFold_spec zeta ell (wordsOf w ((List.range m).map K.level)) ⟨Dict.empty, none⟩
    (by intro k c h; simp [Dict.get?, Dict.empty, Dict.lookup] at h)
  have hv : ∀ α : List Nat, α.length ≤ n → (∀ a ∈ α, 0 < a) → (v.get α).den =
      if bound.getD (-1) < 0 ∨ (α.sum : Int) ≤ bound.getD (-1) then
        Laurent.xpow 0 ((α.sum : Int) - ell) * ((YB.cnt g wd W z x0 α : ℤ) : Laurent) else 0 := by
    intro α hlen hα
    have hs := sum_level K w zeta g wd W hls hW x0 z hz hreach hα (hok α hα hlen)
    rw [h6, sum_wordsOf, hs]
    have h0 : (Vec.get (⟨Dict.empty, none⟩ : Vec (List Nat) PolyVal) α).den = 0 := by
      rw [Vec.get]; simp [Dict.getD, Dict.get?, Dict.empty, Dict.lookup]
    rw [h0, zero_add]
    by_cases he : K.level α.sum = []
    · have : YB.cnt g wd W z x0 α = 0 := by
        rw [he] at hs
        simp at hs
        omega
      rw [this]; simp
    · have := h3 α.sum
      simp only [he, or_false] at this
      by_cases hlt : α.sum < m
      · rw [if_pos hlt, if_pos (this.1 hlt)]
      · rw [if_neg hlt, if_neg (fun h => hlt (this.2 h))]
  have hneg : ∀ α : List Nat, ¬ (∀ a ∈ α, 0 < a) → v.get α = 0 := by
    intro α hα
    apply PolyVal.den_injective
    rw [h6]
    have h0 : (Vec.get (⟨Dict.empty, none⟩ : Vec (List Nat) PolyVal) α).den = 0 := by
      rw [Vec.get]; simp [Dict.getD, Dict.get?, Dict.empty, Dict.lookup]
    rw [h0, zero_add, PolyVal.den_zero]
    apply List.sum_eq_zero
    intro x hx
    rw [List.mem_map] at hx
    obtain ⟨u, -, rfl⟩ := hx
    rw [qcoeff, if_neg (fun h => hα h.1)]
    simp
  obtain ⟨F, hF1, hF2, hF3⟩ := symmetrize_spec gt v n h5 (fun a ha => by by_contra h; exact ha (hneg a h)) (by
    intro a b ha hp
    by_cases hpos : ∀ x ∈ a, 0 < x
    · have hpos' : ∀ x ∈ b, 0 < x := fun x hx => hpos x (hp.mem_iff.2 hx)
      apply PolyVal.den_injective
      rw [hv a ha hpos, hv b (by rw [← hp.length_eq]; exact ha) hpos', hperm a b hp, hp.sum_eq]
    · have hpos' : ¬ ∀ x ∈ b, 0 < x := fun h => hpos (fun x hx => h x (hp.mem_iff.1 hx))
      rw [hneg a hpos, hneg b hpos'])
  refine ⟨F, L', ?_, hF2, fun mu => ?_⟩
  · rw [sumWords, h1]
    simp only
    rw [h4]
    show (do let f ← symmetrize gt v n; pure (f, L') : Except Raised (SymPoly × List Level)) = _
    rw [hF1]; rfl
  · rw [hF3]
    by_cases hl : mu.length ≤ n
    · by_cases hd : mu.Pairwise (· ≥ ·)
      · rw [if_pos ⟨hd, hl⟩]
        by_cases hp : ∀ a ∈ mu, 0 < a
        · rw [hv mu hl hp]
          by_cases hb : bound.getD (-1) < 0 ∨ (mu.sum : Int) ≤ bound.getD (-1)
          · rw [if_pos hb, if_pos ⟨⟨hd, hp⟩, hl, hb⟩]
          · rw [if_neg hb, if_neg (fun h => hb h.2.2)]
        · rw [hneg mu hp, if_neg (fun h => hp h.1.2), PolyVal.den_zero]
      · rw [if_neg (fun h => hd h.1), if_neg (fun h => hd h.1.1), PolyVal.den_zero]
    · rw [if_neg (fun h => hl h.2), if_neg (fun h => hl h.2.1), PolyVal.den_zero]

end Verif.Perm
