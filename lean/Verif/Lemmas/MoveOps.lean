import Verif.Lemmas.BoxOps
import Mathlib.Algebra.BigOperators.Ring.Finset

/-!
Adding a letter, as a product of factors `1 + x u` with the operators of `Verif.Lemmas.BoxOps`.
-/

attribute [-simp] List.getD_eq_getElem?_getD

namespace Verif.Tableaux

open Verif.Part Fomin

variable {R : Rules} {lam mu nu : List Nat} {k : Nat}

section

variable {S : Nat × Nat → Prop} {b0 : Nat × Nat} {mu0 : List Nat}

theorem IsMove.drop (h : IsMove R lam k mu nu S) (hw : Without R.sh mu b0 mu0) (hn : b0 ∉ shapeSet R.sh nu) :
    IsMove R lam k mu0 nu (fun b => S b ∧ b ≠ b0) := by
  refine ⟨h.shape, h.sub1, fun b hb => (hw.set b).2 ⟨h.sub2 hb, ?_⟩, fun b h1 h2 => ?_, fun b hb => ?_, ?_, ?_, ?_, ?_⟩
  · rintro rfl; exact hn hb
  · have := (hw.set b).1 h1
    exact ⟨h.diff b this.1 h2, this.2⟩
  · have := h.inside b hb.1
    exact ⟨(hw.set b).2 ⟨this.1, hb.2⟩, this.2⟩
  · intro i j hS hb
    exact h.corner i j hS.1 hb
  · intro i j hS h1 h2
    exact h.row i j hS.1 ((hw.set _).1 h1).1 h2
  · intro i j hS h1 h2
    exact h.col i j hS.1 ((hw.set _).1 h1).1 h2
  · intro i hS
    exact h.diag i hS.1

theorem IsMove.drop' (h : IsMove R lam k mu nu S) (hn : b0 ∈ shapeSet R.sh nu) :
    IsMove R lam k mu nu (fun b => S b ∧ b ≠ b0) := by
  refine ⟨h.shape, h.sub1, h.sub2, fun b h1 h2 => ⟨h.diff b h1 h2, ?_⟩, fun b hb => h.inside b hb.1, ?_, ?_, ?_, ?_⟩
  · rintro rfl; exact h2 hn
  · intro i j hS hb
    exact h.corner i j hS.1 hb
  · intro i j hS h1 h2
    exact h.row i j hS.1 h1 h2
  · intro i j hS h1 h2
    exact h.col i j hS.1 h1 h2
  · intro i hS
    exact h.diag i hS.1

/-- What relates the diagonal `c` to the boxes `Q` already filled. -/
structure Front (R : Rules) (k : Nat) (c : Int) (Q : Nat × Nat → Prop) : Prop where
  new : ∀ b, cont b = c → ¬ Q b
  row : ∀ i j, cont (i, j + 1) = c → Q (i, j) → R.rowRep k
  col : ∀ i j, cont (i + 1, j) = c → Q (i, j) → R.colRep k
  row' : ∀ i j, cont (i, j) = c → R.rowRep k → ¬ Q (i, j + 1)
  col' : ∀ i j, cont (i, j) = c → R.colRep k → ¬ Q (i + 1, j)
  diag : c = 0 → R.diag k

variable {c : Int} {Q : Nat × Nat → Prop}

theorem Front.removable (hF : Front R k c Q) (hm : IsShape R.sh mu) (h : IsMove R lam k mu nu S)
    (hS : ∀ b, S b → cont b = c ∨ Q b) (hb : S b0) (hc : cont b0 = c) : Removable R.sh lam mu b0 := by
  have hin := h.inside b0 hb
  obtain ⟨i, j⟩ := b0
  refine ⟨hm, hin.1, fun hr => ?_, fun hr => ?_, hin.2⟩
  · by_cases hn : (i, j + 1) ∈ shapeSet R.sh nu
    · exact (h.corner i j hb (shape_left hin.1 hn)).2.1 hn
    · have h1 := h.row i j hb hr hn
      rcases hS _ (h.diff _ hr hn) with h2 | h2
      · simp only [cont] at h2 hc; omega
      · exact hF.row' i j hc h1 h2
  · by_cases hn : (i + 1, j) ∈ shapeSet R.sh nu
    · exact (h.corner i j hb (shape_above h.shape hin.1 hn)).2.2 hn
    · have h1 := h.col i j hb hr hn
      rcases hS _ (h.diff _ hr hn) with h2 | h2
      · simp only [cont] at h2 hc; omega
      · exact hF.col' i j hc h1 h2

theorem Front.add (hF : Front R k c Q) (hr : Removable R.sh lam mu b0) (hw : Without R.sh mu b0 mu0) (hc : cont b0 = c)
    (h : IsMove R lam k mu0 nu S) (hS : ∀ b, S b → Q b) : IsMove R lam k mu nu (fun b => b = b0 ∨ S b) := by
  have hsub : ∀ b, b ∈ shapeSet R.sh mu0 → b ∈ shapeSet R.sh mu := fun b hb => ((hw.set b).1 hb).1
  refine ⟨h.shape, h.sub1, fun b hb => hsub b (h.sub2 hb), fun b h1 h2 => ?_, fun b hb => ?_, ?_, ?_, ?_, ?_⟩
  · by_cases hb : b = b0
    · exact Or.inl hb
    · exact Or.inr (h.diff b ((hw.set b).2 ⟨h1, hb⟩) h2)
  · rcases hb with rfl | hb
    · exact ⟨hr.mem, hr.out⟩
    · exact ⟨hsub b (h.inside b hb).1, (h.inside b hb).2⟩
  · intro i j hb hn
    rcases hb with hb | hb
    · exact absurd hb ((hw.set _).1 (h.sub2 hn)).2
    · exact h.corner i j hb hn
  · intro i j hb h1 h2
    rcases hb with rfl | hb
    · exact absurd h1 hr.right
    · by_cases he : (i, j + 1) = b0
      · exact hF.row i j (he ▸ hc) (hS _ hb)
      · exact h.row i j hb ((hw.set _).2 ⟨h1, he⟩) h2
  · intro i j hb h1 h2
    rcases hb with rfl | hb
    · exact absurd h1 hr.below
    · by_cases he : (i + 1, j) = b0
      · exact hF.col i j (he ▸ hc) (hS _ hb)
      · exact h.col i j hb ((hw.set _).2 ⟨h1, he⟩) h2
  · intro i hb
    rcases hb with rfl | hb
    · exact hF.diag (by rw [← hc]; simp [cont])
    · exact h.diag i hb

theorem Front.add' (hF : Front R k c Q) (hsv : R.sv = true) (hr : Removable R.sh lam mu b0) (hc : cont b0 = c)
    (h : IsMove R lam k mu nu S) (hS : ∀ b, S b → Q b) : IsMove R lam k mu nu (fun b => b = b0 ∨ S b) := by
  have hbn : b0 ∈ shapeSet R.sh nu := by
    by_contra hn
    exact hF.new b0 hc (hS _ (h.diff b0 hr.mem hn))
  refine ⟨h.shape, h.sub1, h.sub2, fun b h1 h2 => Or.inr (h.diff b h1 h2), fun b hb => ?_, ?_, ?_, ?_, ?_⟩
  · rcases hb with rfl | hb
    · exact ⟨hr.mem, hr.out⟩
    · exact h.inside b hb
  · intro i j hb hn
    rcases hb with rfl | hb
    · exact ⟨hsv, fun h1 => hr.right (h.sub2 h1), fun h1 => hr.below (h.sub2 h1)⟩
    · exact h.corner i j hb hn
  · intro i j hb h1 h2
    rcases hb with rfl | hb
    · exact absurd h1 hr.right
    · exact h.row i j hb h1 h2
  · intro i j hb h1 h2
    rcases hb with rfl | hb
    · exact absurd h1 hr.below
    · exact h.col i j hb h1 h2
  · intro i hb
    rcases hb with rfl | hb
    · exact hF.diag (by rw [← hc]; simp [cont])
    · exact h.diag i hb

theorem IsMove.congr {S' : Nat × Nat → Prop} (h : IsMove R lam k mu nu S) (hS : ∀ b, S b ↔ S' b) :
    IsMove R lam k mu nu S' := by
  have : S = S' := funext fun b => propext (hS b)
  exact this ▸ h

end

variable {K : Type*} [CommRing K]

/-- A finite set that holds exactly the moves. -/
def HoldsMoves (R : Rules) (lam : List Nat) (k : Nat) (mvs : List Nat → Finset (List Nat × Finset (Nat × Nat))) : Prop :=
  ∀ mu, IsShape R.sh mu → ∀ p, p ∈ mvs mu ↔ IsMove R lam k mu p.1 (· ∈ p.2)

open scoped Classical in
/-- The sum over the moves whose boxes all satisfy `Q`. -/
noncomputable def moveSum (mvs : List Nat → Finset (List Nat × Finset (Nat × Nat))) (x : K) (Q : Nat × Nat → Prop)
    (f : List Nat → K) (mu : List Nat) : K :=
  ∑ p ∈ (mvs mu).filter (fun p => ∀ b ∈ p.2, Q b), x ^ p.2.card * f p.1

/-- The factor for boxes with several letters. -/
def svBeta (K : Type*) [CommRing K] (sv : Bool) : K := if sv then 1 else 0

variable {mvs : List Nat → Finset (List Nat × Finset (Nat × Nat))}

open scoped Classical in
theorem moveSum_step (hmv : HoldsMoves R lam k mvs) {c : Int} {Q : Nat × Nat → Prop} (hF : Front R k c Q)
    (hm : IsShape R.sh mu) (x : K) (f : List Nat → K) :
    moveSum mvs x (fun b => cont b = c ∨ Q b) f mu =
      moveSum mvs x Q f mu + x * boxOp R.sh lam (svBeta K R.sv) c (moveSum mvs x Q f) mu := by
  have hall : ∀ p ∈ mvs mu, (∀ b ∈ p.2, cont b = c ∨ Q b) → ∀ b ∈ p.2, cont b = c → Removable R.sh lam mu b := by
    intro p hp h b hb hc
    exact hF.removable hm ((hmv mu hm p).1 hp) h hb hc
  rcases boxOp_cases R.sh lam mu c with ⟨b0, mu0, h1, h2, h3⟩ | h1
  · subst h2
    rw [boxOp_pos h1 h3]
    have hm0 := h3.shape
    -- by whether `b0` gets the letter, and whether it had letters before
    have hsplit : moveSum mvs x (fun b => cont b = cont b0 ∨ Q b) f mu =
        moveSum mvs x Q f mu +
          (∑ p ∈ (mvs mu).filter (fun p => (∀ b ∈ p.2, cont b = cont b0 ∨ Q b) ∧ b0 ∈ p.2 ∧ b0 ∉ shapeSet R.sh p.1),
            x ^ p.2.card * f p.1 +
          ∑ p ∈ (mvs mu).filter (fun p => (∀ b ∈ p.2, cont b = cont b0 ∨ Q b) ∧ b0 ∈ p.2 ∧ b0 ∈ shapeSet R.sh p.1),
            x ^ p.2.card * f p.1) := by
      unfold moveSum
      simp only [Finset.sum_filter]
      rw [← Finset.sum_add_distrib, ← Finset.sum_add_distrib]
      refine Finset.sum_congr rfl (fun p hp => ?_)
      by_cases g1 : ∀ b ∈ p.2, cont b = cont b0 ∨ Q b
      · rw [if_pos g1]
        by_cases g2 : b0 ∈ p.2
        · have g3 : ¬ ∀ b ∈ p.2, Q b := fun h => hF.new b0 rfl (h b0 g2)
          rw [if_neg g3, zero_add]
          by_cases g4 : b0 ∈ shapeSet R.sh p.1
          · rw [if_neg (fun h => h.2.2 g4), if_pos ⟨g1, g2, g4⟩, zero_add]
          · rw [if_pos ⟨g1, g2, g4⟩, if_neg (fun h => g4 h.2.2), add_zero]
        · have g3 : ∀ b ∈ p.2, Q b := by
            intro b hb
            rcases g1 b hb with h | h
            · have := (hall p hp g1 b hb h).unique h1 h
              rw [this] at hb
              exact absurd hb g2
            · exact h
          rw [if_pos g3, if_neg (fun h => g2 h.2.1), if_neg (fun h => g2 h.2.1)]
          ring
      · rw [if_neg g1, if_neg (fun h => g1 (fun b hb => Or.inr (h b hb))), if_neg (fun h => g1 h.1),
          if_neg (fun h => g1 h.1)]
        ring
    have hA : ∑ p ∈ (mvs mu).filter (fun p => (∀ b ∈ p.2, cont b = cont b0 ∨ Q b) ∧ b0 ∈ p.2 ∧
        b0 ∉ shapeSet R.sh p.1), x ^ p.2.card * f p.1 = x * moveSum mvs x Q f mu0 := by
      unfold moveSum
      rw [Finset.mul_sum]
      refine Finset.sum_bij' (fun p _ => (p.1, p.2.erase b0)) (fun p _ => (p.1, insert b0 p.2)) ?_ ?_ ?_ ?_ ?_
      · intro p hp
        obtain ⟨g1, g2, g3, g4⟩ := Finset.mem_filter.1 hp
        have hmove := (hmv mu hm p).1 g1
        refine Finset.mem_filter.2 ⟨(hmv mu0 hm0 _).2 ?_, ?_⟩
        · refine (hmove.drop h3 g4).congr (fun b => ?_)
          simp only [Finset.mem_erase]
          tauto
        · intro b hb
          obtain ⟨e1, e2⟩ := Finset.mem_erase.1 hb
          rcases g2 b e2 with h | h
          · exact absurd ((hall p g1 g2 b e2 h).unique h1 h) e1
          · exact h
      · intro p hp
        obtain ⟨g1, g2⟩ := Finset.mem_filter.1 hp
        have hmove := (hmv mu0 hm0 p).1 g1
        refine Finset.mem_filter.2 ⟨(hmv mu hm _).2 ?_, ?_, ?_, ?_⟩
        · refine (hF.add h1 h3 rfl hmove g2).congr (fun b => ?_)
          simp only [Finset.mem_insert]
        · intro b hb
          rcases Finset.mem_insert.1 hb with rfl | hb
          · exact Or.inl rfl
          · exact Or.inr (g2 b hb)
        · exact Finset.mem_insert_self _ _
        · intro h
          exact ((h3.set b0).1 (hmove.sub2 h)).2 rfl
      · intro p hp
        obtain ⟨g1, g2, g3, g4⟩ := Finset.mem_filter.1 hp
        simp only [Finset.insert_erase g3]
      · intro p hp
        obtain ⟨g1, g2⟩ := Finset.mem_filter.1 hp
        have : b0 ∉ p.2 := fun h => hF.new b0 rfl (g2 b0 h)
        simp only [Finset.erase_insert this]
      · intro p hp
        obtain ⟨g1, g2, g3, g4⟩ := Finset.mem_filter.1 hp
        simp only
        rw [← Finset.card_erase_add_one g3, pow_succ]
        ring
    have hB : ∑ p ∈ (mvs mu).filter (fun p => (∀ b ∈ p.2, cont b = cont b0 ∨ Q b) ∧ b0 ∈ p.2 ∧
        b0 ∈ shapeSet R.sh p.1), x ^ p.2.card * f p.1 = x * (svBeta K R.sv * moveSum mvs x Q f mu) := by
      cases hsv : R.sv with
      | false =>
        rw [svBeta, if_neg (by simp), zero_mul, mul_zero]
        refine Finset.sum_eq_zero (fun p hp => ?_)
        obtain ⟨g1, g2, g3, g4⟩ := Finset.mem_filter.1 hp
        have := (((hmv mu hm p).1 g1).corner b0.1 b0.2 g3 g4).1
        rw [hsv] at this
        exact absurd this (by simp)
      | true =>
        rw [svBeta, if_pos rfl, one_mul]
        unfold moveSum
        rw [Finset.mul_sum]
        refine Finset.sum_bij' (fun p _ => (p.1, p.2.erase b0)) (fun p _ => (p.1, insert b0 p.2)) ?_ ?_ ?_ ?_ ?_
        · intro p hp
          obtain ⟨g1, g2, g3, g4⟩ := Finset.mem_filter.1 hp
          have hmove := (hmv mu hm p).1 g1
          refine Finset.mem_filter.2 ⟨(hmv mu hm _).2 ?_, ?_⟩
          · refine (hmove.drop' g4).congr (fun b => ?_)
            simp only [Finset.mem_erase]
            tauto
          · intro b hb
            obtain ⟨e1, e2⟩ := Finset.mem_erase.1 hb
            rcases g2 b e2 with h | h
            · exact absurd ((hall p g1 g2 b e2 h).unique h1 h) e1
            · exact h
        · intro p hp
          obtain ⟨g1, g2⟩ := Finset.mem_filter.1 hp
          have hmove := (hmv mu hm p).1 g1
          refine Finset.mem_filter.2 ⟨(hmv mu hm _).2 ?_, ?_, ?_, ?_⟩
          · refine (hF.add' hsv h1 rfl hmove g2).congr (fun b => ?_)
            simp only [Finset.mem_insert]
          · intro b hb
            rcases Finset.mem_insert.1 hb with rfl | hb
            · exact Or.inl rfl
            · exact Or.inr (g2 b hb)
          · exact Finset.mem_insert_self _ _
          · by_contra hn
            exact hF.new b0 rfl (g2 b0 (hmove.diff b0 h1.mem hn))
        · intro p hp
          obtain ⟨g1, g2, g3, g4⟩ := Finset.mem_filter.1 hp
          simp only [Finset.insert_erase g3]
        · intro p hp
          obtain ⟨g1, g2⟩ := Finset.mem_filter.1 hp
          have : b0 ∉ p.2 := fun h => hF.new b0 rfl (g2 b0 h)
          simp only [Finset.erase_insert this]
        · intro p hp
          obtain ⟨g1, g2, g3, g4⟩ := Finset.mem_filter.1 hp
          simp only
          rw [← Finset.card_erase_add_one g3, pow_succ]
          ring
    rw [hsplit, hA, hB]
    ring
  · rw [boxOp_neg h1, mul_zero, add_zero]
    unfold moveSum
    have : ∀ p ∈ mvs mu, (∀ b ∈ p.2, cont b = c ∨ Q b) ↔ ∀ b ∈ p.2, Q b := ?_
    · refine Finset.sum_congr ?_ (fun _ _ => rfl)
      ext p
      simp only [Finset.mem_filter]
      exact ⟨fun h => ⟨h.1, (this p h.1).1 h.2⟩, fun h => ⟨h.1, (this p h.1).2 h.2⟩⟩
    intro p hp
    constructor
    · intro h b hb
      rcases h b hb with h2 | h2
      · exact absurd (hall p hp h b hb h2) (h1 b h2)
      · exact h2
    · intro h b hb
      exact Or.inr (h b hb)

theorem isMove_refl (hm : IsShape R.sh mu) (hl : shapeSet R.sh lam ⊆ shapeSet R.sh mu) :
    IsMove R lam k mu mu (fun _ => False) :=
  ⟨hm, hl, le_rfl, fun _ h1 h2 => absurd h1 h2, fun _ h => h.elim, fun _ _ h => h.elim, fun _ _ h => h.elim,
    fun _ _ h => h.elim, fun _ h => h.elim⟩

open scoped Classical in
theorem moveSum_none (hmv : HoldsMoves R lam k mvs) {Q : Nat × Nat → Prop} (hm : IsShape R.sh mu)
    (hl : shapeSet R.sh lam ⊆ shapeSet R.sh mu) (hQ : ∀ b ∈ shapeSet R.sh mu, ¬ Q b) (x : K) (f : List Nat → K) :
    moveSum mvs x Q f mu = f mu := by
  unfold moveSum
  have : (mvs mu).filter (fun p => ∀ b ∈ p.2, Q b) = {(mu, ∅)} := by
    ext p
    rw [Finset.mem_filter, Finset.mem_singleton]
    constructor
    · rintro ⟨h1, h2⟩
      have h1 := (hmv mu hm p).1 h1
      have h3 : p.2 = ∅ := by
        rw [Finset.eq_empty_iff_forall_notMem]
        intro b hb
        exact hQ b (h1.inside b hb).1 (h2 b hb)
      refine Prod.ext (shapeSet_inj h1.shape hm (Set.Subset.antisymm h1.sub2 ?_)) h3
      intro b hb
      by_contra hn
      have := h1.diff b hb hn
      rw [h3] at this
      simp at this
    · rintro rfl
      refine ⟨(hmv mu hm _).2 ((isMove_refl hm hl).congr (by simp)), by simp⟩
  rw [this, Finset.sum_singleton]
  simp

/-- The shapes with all boxes on the diagonals from `lo` to `hi - 1`, between `lam` and everything. -/
def InBand (R : Rules) (lam : List Nat) (lo hi : Int) (mu : List Nat) : Prop :=
  IsShape R.sh mu ∧ shapeSet R.sh lam ⊆ shapeSet R.sh mu ∧ ∀ b ∈ shapeSet R.sh mu, lo ≤ cont b ∧ cont b < hi

theorem InBand.without {lo hi : Int} {b : Nat × Nat} (h : InBand R lam lo hi mu) (hr : Removable R.sh lam mu b)
    (hw : Without R.sh mu b nu) : InBand R lam lo hi nu := by
  refine ⟨hw.shape, fun c hc => (hw.set c).2 ⟨h.2.1 hc, ?_⟩, fun c hc => h.2.2 c ((hw.set c).1 hc).1⟩
  rintro rfl
  exact hr.out hc

theorem InBand.move {lo hi : Int} {S : Nat × Nat → Prop} (h : InBand R lam lo hi mu) (hmove : IsMove R lam k mu nu S) :
    InBand R lam lo hi nu :=
  ⟨hmove.shape, hmove.sub1, fun b hb => h.2.2 b (hmove.sub2 hb)⟩

/-- The operators only look at smaller shapes. -/
theorem hh_boxOp_congr {lo hi : Int} {x β : K} {c : Int} {f g : List Nat → K}
    (hfg : ∀ mu, InBand R lam lo hi mu → f mu = g mu) (hm : InBand R lam lo hi mu) :
    hh (boxOp R.sh lam β c) x f mu = hh (boxOp R.sh lam β c) x g mu := by
  show f mu + x * boxOp R.sh lam β c f mu = g mu + x * boxOp R.sh lam β c g mu
  rcases boxOp_cases R.sh lam mu c with ⟨b, nu, h1, rfl, h2⟩ | h
  · rw [boxOp_pos h1 h2, boxOp_pos h1 h2, hfg mu hm, hfg nu (hm.without h1 h2)]
  · rw [boxOp_neg h, boxOp_neg h, hfg mu hm]

/-- A letter that may be repeated in rows: the diagonals are worked off upwards. -/
theorem moveSum_desc (hmv : HoldsMoves R lam k mvs) (hr : R.rowRep k) (hc : ¬ R.colRep k) (hd : R.diag k)
    {lo hi : Int} (x : K) (f : List Nat → K) (m : Nat) : ∀ mu, InBand R lam lo hi mu →
      moveSum mvs x (fun b => cont b < lo + m) f mu =
        desc (fun i : Nat => boxOp R.sh lam (svBeta K R.sv) (lo + i)) x 0 m f mu := by
  induction m with
  | zero =>
    intro mu hm
    rw [moveSum_none hmv hm.1 hm.2.1 (fun b hb h => by have := (hm.2.2 b hb).1; push_cast at h; omega)]
    rfl
  | succ m ih =>
    intro mu hm
    rw [desc_top, Module.End.mul_apply, zero_add]
    rw [← hh_boxOp_congr (R := R) (lam := lam) (lo := lo) (hi := hi) ih hm]
    show _ = moveSum mvs x (fun b => cont b < lo + m) f mu +
      x * boxOp R.sh lam (svBeta K R.sv) (lo + m) (moveSum mvs x (fun b => cont b < lo + m) f) mu
    rw [← moveSum_step hmv (c := lo + m) (Q := fun b => cont b < lo + m) ?_ hm.1]
    · congr 1
      funext b
      push_cast
      apply propext
      omega
    · refine ⟨fun b h => by omega, fun _ _ _ _ => hr, fun i j h h' => ?_, fun i j h _ => ?_, fun _ _ _ h => absurd h hc,
        fun _ => hd⟩
      · simp only [cont] at h h'; push_cast at h; omega
      · simp only [cont] at h ⊢; push_cast; omega

/-- A letter that may be repeated in columns: the diagonals are worked off downwards. -/
theorem moveSum_asc (hmv : HoldsMoves R lam k mvs) (hr : ¬ R.rowRep k) (hc : R.colRep k)
    {lo : Int} {N : Nat} (x : K) (f : List Nat → K) (m s : Nat) (hs : s + m = N)
    (hd : R.diag k ∨ ∀ i : Nat, s ≤ i → lo + i ≠ 0) : ∀ mu, InBand R lam lo (lo + N) mu →
      moveSum mvs x (fun b => lo + s ≤ cont b) f mu =
        asc (fun i : Nat => boxOp R.sh lam (svBeta K R.sv) (lo + i)) x s m f mu := by
  induction m generalizing s with
  | zero =>
    intro mu hm
    rw [moveSum_none hmv hm.1 hm.2.1 (fun b hb h => by have := (hm.2.2 b hb).2; omega)]
    rfl
  | succ m ih =>
    intro mu hm
    have ih := ih (s + 1) (by omega) (hd.imp id (fun h i hi => h i (by omega)))
    rw [asc, Module.End.mul_apply]
    rw [← hh_boxOp_congr (R := R) (lam := lam) (lo := lo) (hi := lo + N) ih hm]
    show _ = moveSum mvs x (fun b => lo + ((s + 1 : Nat) : Int) ≤ cont b) f mu +
      x * boxOp R.sh lam (svBeta K R.sv) (lo + s) (moveSum mvs x (fun b => lo + ((s + 1 : Nat) : Int) ≤ cont b) f) mu
    rw [← moveSum_step hmv (c := lo + s) (Q := fun b => lo + ((s + 1 : Nat) : Int) ≤ cont b) ?_ hm.1]
    · congr 1
      funext b
      push_cast
      apply propext
      omega
    · push_cast
      refine ⟨fun b h => by omega, fun i j h h' => ?_, fun _ _ _ _ => hc, fun _ _ _ h => absurd h hr, fun i j h _ => ?_,
        fun h => ?_⟩
      · simp only [cont] at h h'; push_cast at h; omega
      · simp only [cont] at h ⊢; push_cast; omega
      · rcases hd with hd | hd
        · exact hd
        · exact absurd h (hd s le_rfl)

end Verif.Tableaux
