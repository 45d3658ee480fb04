import Verif.Lemmas.StableKinds

/-!
# The common part of the four stable Grothendieck polynomials
-/

attribute [-simp] List.getD_eq_getElem?_getD

namespace Verif.Perm

open Verif.Symm Verif.Part Verif.PermSpec

theorem sumWords_entry {gt : PolyVal → PolyVal → Bool} {K : LevelKind} {zeta : List Int → Int} {ell : Int} {w : SPerm} {n : Nat}
    {bound : Option Int} {fuel : Nat} {L L' : List Level} {F : SymPoly}
    (h : sumWords gt K zeta ell w n bound fuel L = .ok (F, L')) : ∃ levels, K.run fuel bound L = some (levels, L') := by
  unfold sumWords at h
  cases hr : K.run fuel bound L with
  | none => rw [hr] at h; cases h
  | some r =>
    obtain ⟨levels, L1⟩ := r
    rw [hr] at h
    simp only at h
    cases h1 : (wordsOf w levels).foldlM (sumStep zeta ell) (⟨Dict.empty, none⟩ : Vec (List Nat) PolyVal) with
    | error e => rw [h1] at h; cases h
    | ok ans =>
      rw [h1] at h
      cases h2 : symmetrize gt ans n with
      | error e =>
        have : (Except.error e : Except Raised (SymPoly × List Level)) = .ok (F, L') := by
          rw [← h]; simp only [bind, Except.bind, h2]
        cases this
      | ok f =>
        have : (Except.ok (f, L1) : Except Raised (SymPoly × List Level)) = .ok (F, L') := by
          rw [← h]; simp only [bind, Except.bind, h2]; rfl
        rw [Except.ok.injEq, Prod.mk.injEq] at this
        exact ⟨levels, by rw [this.2]⟩

theorem sumWords_full (gt : PolyVal → PolyVal → Bool) (K : LevelKind) (w : SPerm) (zeta : List Int → Int) (ell : Int) (n : Nat)
    {X Y : Type} (g : X → Nat → X) (wd : Y → List Nat) (W : List Y) (hWn : W.Nodup) {y0 : Y}
    (h0 : ∀ y, y ∈ W ∧ wd y = [] ↔ y = y0) {ls : List Nat} (hls : ls.Nodup) (hW : ∀ y ∈ W, ∀ i ∈ wd y, i ∈ ls) (x0 z : X)
    (hz : ∀ a : List Nat, (∀ i ∈ a, i ∈ ls) → zeta (a.map (fun i : Nat => (i : Int))) = ((W.map wd).count a : ℤ))
    (hreach : ∀ u, (∀ i ∈ u, i ∈ K.letters) ∧ K.reach K.start u = some w ↔ (∀ i ∈ u, i ∈ ls) ∧ u.foldl g x0 = z)
    (hok : ∀ α : List Nat, (∀ a ∈ α, 0 < a) → α.length ≤ n → ∀ u : List Nat, u.length = α.sum →
      (∀ s ∈ α.splitLengths u, zeta (s.map (fun i : Nat => (i : Int))) ≠ 0) →
      ∀ v, v <+: u → v ≠ [] → K.ok v = true)
    (hperm : ∀ α β : List Nat, α.Perm β → YB.cnt g wd W z x0 α = YB.cnt g wd W z x0 β)
    {T : Nat} (hT : K.level T = []) {fuel : Nat} (hf : T < fuel) (bound : Option Int) {L : List Level} (hL : CacheEntry K L)
    (A : Set (List Y)) (hA : ∀ fs, fs ∈ A ↔ (∀ y ∈ fs, y ∈ W) ∧ (fs.flatMap wd).foldl g x0 = z)
    (hmin : ∀ fs ∈ A, ell ≤ ((fs.flatMap wd).length : Nat)) {len : Y → Nat} (hlen : ∀ y, len y = (wd y).length) :
    ∃ F L', sumWords gt K zeta ell w n bound fuel L = .ok (F, L') ∧ CacheEntry K L' ∧ IsSym n F ∧
      Enumerates len y0 A ell n bound F := by
  classical
  obtain rfl : len = fun y => (wd y).length := funext hlen
  obtain ⟨F, L', h1, h2, h3⟩ := sumWords_spec gt K w zeta ell n g wd W hls hW x0 z hz hreach hok hperm hT hf bound
    (K.good_of_entry hT hL)
  obtain ⟨levels, hr⟩ := sumWords_entry h1
  have hset : ∀ α : List Nat, {fs ∈ A | fs.map (fun y => (wd y).length) = α} =
      {fs : List Y | fs.map (fun y => (wd y).length) = α ∧ (∀ y ∈ fs, y ∈ W) ∧ (fs.flatMap wd).foldl g x0 = z} := by
    intro α
    ext fs
    simp only [Set.mem_ofPred_eq, hA]
    tauto
  have hcard : ∀ α, Set.ncard {fs ∈ A | fs.map (fun y => (wd y).length) = α} = YB.cnt g wd W z x0 α := by
    intro α; rw [hset, (YB.cnt_eq_ncard g wd hWn z x0 α).2]
  have hsum : ∀ fs : List Y, (fs.flatMap wd).length = (fs.map (fun y => (wd y).length)).sum := by
    intro fs; rw [List.length_flatMap]
  have h3' : ∀ mu, (F.get mu).den = if IsPartition mu ∧ mu.length ≤ n ∧ Within bound mu.sum then
        Laurent.xpow 0 ((mu.sum : Int) - ell) * ((YB.cnt g wd W z x0 mu : ℤ) : Laurent) else 0 := by
    intro mu
    rw [h3]
    congr 1
    rw [within_iff]
  have hfin : {fs ∈ A | fs.length = n}.Finite :=
    Set.Finite.subset (lists_finite W n) (fun fs h => ⟨h.2, ((hA fs).1 h.1).1⟩)
  refine ⟨F, L', h1, hL.run hr, h2, ?_, ?_, ?_, hfin, ?_, ?_⟩
  · intro α β hp; rw [hcard, hcard, hperm α β hp]
  · intro mu hp hl hb; rw [h3', if_pos ⟨hp, hl, hb⟩, hcard]
  · intro mu hn; rw [h3', if_neg hn]
  · intro fs hfs; rw [← hsum]; exact hmin fs hfs
  · have hfin' : {fs ∈ A | fs.length = n ∧ Within bound (fs.map (fun y => (wd y).length)).sum}.Finite :=
      hfin.subset (fun fs h => ⟨h.1, h.2.1⟩)
    have hone : W.filter (fun y => (wd y).length = 0) = [y0] := by
      have hm : ∀ y, y ∈ W.filter (fun y => (wd y).length = 0) ↔ y = y0 := by
        intro y
        rw [List.mem_filter, decide_eq_true_eq, List.length_eq_zero_iff, h0]
      have hnd : (W.filter (fun y => (wd y).length = 0)).Nodup := hWn.filter _
      have : (W.filter (fun y => (wd y).length = 0)).Perm [y0] :=
        (List.perm_ext_iff_of_nodup hnd (by simp)).2 (fun y => by rw [hm, List.mem_singleton])
      exact List.perm_singleton.1 this
    rw [finsum_mem_eq_finite_toFinset_sum _ hfin',
      phi_factors n g wd W hWn z x0 hone hperm h2 ell bound h3' hfin'.toFinset (by
        intro fs
        rw [Set.Finite.mem_toFinset]
        simp only [Set.mem_ofPred_eq, hA, hsum]
        tauto)]
    refine Finset.sum_congr rfl (fun fs hfs => ?_)
    rw [Set.Finite.mem_toFinset] at hfs
    rw [hsum, xm_map n (fun y => (wd y).length) hfs.2.1 y0]

/-! ### the two families of factors -/

theorem mem_dec_nil (l m : Nat) (y : List Nat) : y ∈ YB.decWords l m ∧ id y = [] ↔ y = [] := by
  constructor
  · rintro ⟨-, h⟩; exact h
  · rintro rfl; exact ⟨YB.mem_decWords.2 (by simp), rfl⟩

theorem mem_uni_nil (m : Nat) (y : List Nat × List Nat) : y ∈ YB.uniPairs m ∧ y.1 ++ y.2 = [] ↔ y = ([], []) := by
  constructor
  · rintro ⟨-, h⟩
    rw [List.append_eq_nil_iff] at h
    exact Prod.ext h.1 h.2
  · rintro rfl; exact ⟨YB.mem_uniPairs.2 (by simp), rfl⟩

theorem mem_decProducts {P : List Nat → Prop} {N : Nat} (hP : ∀ u, P u → ∀ i ∈ u, 1 ≤ i ∧ i < N) (fs : List (List Nat)) :
    fs ∈ DecProducts P ↔ (∀ y ∈ fs, y ∈ YB.decWords 1 (N - 1)) ∧ P (fs.flatMap id) := by
  rw [DecProducts, Set.mem_ofPred_eq, List.flatMap_id]
  constructor
  · rintro ⟨h1, h2⟩
    refine ⟨fun y hy => YB.mem_decWords.2 ⟨h1 y hy, fun i hi => ?_⟩, h2⟩
    have := hP _ h2 i (List.mem_flatten.2 ⟨y, hy, hi⟩)
    omega
  · rintro ⟨h1, h2⟩
    exact ⟨fun y hy => (YB.mem_decWords.1 (h1 y hy)).1, h2⟩

theorem mem_uniProducts {P : List Nat → Prop} {N : Nat} (hP : ∀ u, P u → ∀ i ∈ u, i < N) (fs : List (List Nat × List Nat)) :
    fs ∈ UniProducts P ↔ (∀ y ∈ fs, y ∈ YB.uniPairs N) ∧ P (fs.flatMap (fun f => f.1 ++ f.2)) := by
  rw [UniProducts, Set.mem_ofPred_eq]
  constructor
  · rintro ⟨h1, h2⟩
    refine ⟨fun y hy => YB.mem_uniPairs.2 ⟨(h1 y hy).1, (h1 y hy).2, fun i hi => ?_⟩, h2⟩
    exact hP _ h2 i (List.mem_flatMap.2 ⟨y, hy, hi⟩)
  · rintro ⟨h1, h2⟩
    exact ⟨fun y hy => ⟨(YB.mem_uniPairs.1 (h1 y hy)).1, (YB.mem_uniPairs.1 (h1 y hy)).2.1⟩, h2⟩

end Verif.Perm
