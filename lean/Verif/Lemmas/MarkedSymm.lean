import Verif.Lemmas.MoveOps
import Verif.Lemmas.Transfer
import Mathlib.RingTheory.Localization.FractionRing
import Mathlib.Algebra.MvPolynomial.CommRing

/-!
The generating functions of marked tableaux (shifted or not, set-valued or not) are symmetric.
-/

attribute [-simp] List.getD_eq_getElem?_getD

namespace Verif.Tableaux

open Tab Verif.Part Symm Fomin

/-- The rules for marked tableaux.  The letters are `1' < 1 < 2' < 2 < ...`, written `-1, 1, -2, 2, ...`.  Unprimed letters
may be repeated in rows, primed ones in columns; `dp` says if primed letters may be on the diagonal. -/
def markRules (sh sv dp : Bool) : Rules where
  sh := sh
  sv := sv
  val k := if k % 2 = 0 then ((k / 2 : Nat) : Int) else -(((k + 1) / 2 : Nat) : Int)
  rowRep k := k % 2 = 0
  colRep k := k % 2 = 1
  diag k := dp = true ∨ k % 2 = 0

theorem markRules_inj (sh sv dp : Bool) : Function.Injective (markRules sh sv dp).val := by
  intro a b h
  simp only [markRules] at h
  split at h <;> split at h <;> omega

theorem markRules_val_even (sh sv dp : Bool) (i : Nat) : (markRules sh sv dp).val (2 * i + 2) = (i : Int) + 1 := by
  simp only [markRules]
  rw [if_pos (by omega)]
  omega

theorem markRules_val_odd (sh sv dp : Bool) (i : Nat) : (markRules sh sv dp).val (2 * i + 1) = -((i : Int) + 1) := by
  simp only [markRules]
  rw [if_neg (by omega)]
  omega

variable {R : Rules} {lam mu : List Nat} {k : Nat} {K : Type*} [CommRing K]

/-- If the generating functions come from operators and two of these commute, then neighbouring variables may be
exchanged. -/
theorem swap_of_ops {σ : Type*} (ok : σ → Prop) (T : K → Module.End K (σ → K)) (G : Nat → σ → (Nat → K) → K)
    (hT : ∀ x f g, (∀ mu, ok mu → f mu = g mu) → ∀ mu, ok mu → T x f mu = T x g mu)
    (hG : ∀ k mu, ok mu → ∀ y, G (k + 1) mu y = T (y k) (fun nu => G k nu y) mu)
    (hG0 : ∀ k mu y y', (∀ i < k, y i = y' i) → G k mu y = G k mu y')
    (j n : Nat) (hj : j + 2 ≤ n) (y : Nat → K)
    (hcomm : T (y j) * T (y (j + 1)) = T (y (j + 1)) * T (y j)) :
    ∀ mu, ok mu → G n mu y = G n mu (y ∘ Equiv.swap j (j + 1)) := by
  induction n with
  | zero => omega
  | succ n ih =>
    intro mu hmu
    rw [hG n mu hmu, hG n mu hmu]
    by_cases hjn : j + 2 ≤ n
    · rw [Function.comp_apply, Equiv.swap_apply_of_ne_of_ne (by omega) (by omega)]
      exact hT _ _ _ (ih hjn) mu hmu
    · obtain rfl : n = j + 1 := by omega
      have e1 : T (y (j + 1)) (fun nu => G (j + 1) nu y) mu = T (y (j + 1)) (T (y j) (fun nu => G j nu y)) mu :=
        hT _ _ _ (fun nu hnu => hG j nu hnu y) mu hmu
      have e2 : T ((y ∘ Equiv.swap j (j + 1)) (j + 1)) (fun nu => G (j + 1) nu (y ∘ Equiv.swap j (j + 1))) mu =
          T (y j) (T (y (j + 1)) (fun nu => G j nu y)) mu := by
        rw [Function.comp_apply, Equiv.swap_apply_right]
        refine hT _ _ _ (fun nu hnu => ?_) mu hmu
        rw [hG j nu hnu, Function.comp_apply, Equiv.swap_apply_left]
        refine hT _ _ _ (fun rho _ => ?_) nu hnu
        apply hG0
        intro i hi
        rw [Function.comp_apply, Equiv.swap_apply_of_ne_of_ne (by omega) (by omega)]
      rw [e1, e2, ← Module.End.mul_apply, ← Module.End.mul_apply, hcomm]

/-! ### the operators -/

theorem desc_congr {lo hi : Int} {x β : K} (k m : Nat) {f g : List Nat → K}
    (hfg : ∀ mu, InBand R lam lo hi mu → f mu = g mu) : ∀ mu, InBand R lam lo hi mu →
      desc (fun i : Nat => boxOp R.sh lam β (lo + i)) x k m f mu =
        desc (fun i : Nat => boxOp R.sh lam β (lo + i)) x k m g mu := by
  induction m generalizing k f g with
  | zero => exact hfg
  | succ m ih =>
    intro mu hm
    rw [desc, Module.End.mul_apply, Module.End.mul_apply]
    exact ih (k + 1) (fun nu hnu => hh_boxOp_congr hfg hnu) mu hm

theorem asc_congr {lo hi : Int} {x β : K} (k m : Nat) {f g : List Nat → K}
    (hfg : ∀ mu, InBand R lam lo hi mu → f mu = g mu) : ∀ mu, InBand R lam lo hi mu →
      asc (fun i : Nat => boxOp R.sh lam β (lo + i)) x k m f mu =
        asc (fun i : Nat => boxOp R.sh lam β (lo + i)) x k m g mu := by
  induction m generalizing k f g with
  | zero => exact hfg
  | succ m ih =>
    intro mu hm
    rw [asc, Module.End.mul_apply, Module.End.mul_apply]
    exact hh_boxOp_congr (ih (k + 1) hfg) hm

/-- The operator that adds the letters `k'` and `k`. -/
noncomputable def pairOp (sh sv dp : Bool) (lam : List Nat) (lo : Int) (N : Nat) (x : K) : Module.End K (List Nat → K) :=
  desc (fun i : Nat => boxOp sh lam (svBeta K sv) (lo + i)) x 0 (N + 1) *
    asc (fun i : Nat => boxOp sh lam (svBeta K sv) (lo + i)) x (if dp then 0 else 1) (if dp then N + 1 else N)

theorem pairOp_comm {sh sv dp : Bool} (hdp : sh = false → dp = true) (lam : List Nat) {lo : Int}
    (hlo : sh = true → lo = 0) (N : Nat) {x y x' y' : K} (hx : op (svBeta K sv) x x' = 0)
    (hy : op (svBeta K sv) y y' = 0) :
    pairOp sh sv dp lam lo N x * pairOp sh sv dp lam lo N y = pairOp sh sv dp lam lo N y * pairOp sh sv dp lam lo N x := by
  cases sh with
  | false =>
    rw [hdp rfl]
    simp only [pairOp, if_true]
    exact (boxOp_rel false lam (svBeta K sv) lo 0 (Or.inl rfl)).commute_A hx hy 0 (N + 1) le_rfl
  | true =>
    obtain rfl := hlo rfl
    have hrel := boxOp_rel true lam (svBeta K sv) 0 1 (Or.inr (by norm_num))
    obtain ⟨u, hu⟩ : ∃ u, (fun i : Nat => boxOp true lam (svBeta K sv) (0 + i)) = u := ⟨_, rfl⟩
    have h0 : u 1 * u 0 * u 1 = 0 := by
      rw [← hu]
      exact boxOp_up (sh := true) (lam := lam) (β := svBeta K sv) 0
    rw [hu] at hrel
    simp only [pairOp, hu]
    cases dp with
    | false =>
      have e : ∀ x : K, desc u x 0 (N + 1) * asc u x (if false = true then 0 else 1) (if false = true then N + 1 else N) =
          desc u x 1 N * hh (u 0) x * asc u x 1 N := fun x => rfl
      rw [e, e]
      exact hrel.commute_B h0 hx hy (cond_P hy) N
    | true =>
      have e : ∀ x : K, desc u x 0 (N + 1) * asc u x (if true = true then 0 else 1) (if true = true then N + 1 else N) =
          desc u x 1 N * hh (u 0) (op (svBeta K sv) x x) * asc u x 1 N := by
        intro x
        rw [← hh_mul (hrel.sq 0)]
        simp only [if_true]
        rw [desc, asc]
        simp only [mul_assoc, zero_add]
      rw [e, e]
      exact hrel.commute_B h0 hx hy (cond_Q hy) N

theorem pairOp_congr {sv dp : Bool} {lo hi : Int} {N : Nat} {x : K} {f g : List Nat → K}
    (hfg : ∀ mu, InBand R lam lo hi mu → f mu = g mu) (mu : List Nat) (hm : InBand R lam lo hi mu) :
    pairOp R.sh sv dp lam lo N x f mu = pairOp R.sh sv dp lam lo N x g mu := by
  rw [pairOp, Module.End.mul_apply, Module.End.mul_apply]
  exact desc_congr _ _ (fun nu hnu => asc_congr _ _ hfg nu hnu) mu hm

/-! ### the moves -/

variable {moves : Nat → List Nat → List (List Nat × List (Nat × Nat))}

/-- The moves as finite sets. -/
def moveSet (ms : List (List Nat × List (Nat × Nat))) : Finset (List Nat × Finset (Nat × Nat)) :=
  (ms.map (fun p => (p.1, p.2.toFinset))).toFinset

theorem holdsMoves (hmv : ∀ mu, IsShape R.sh mu → ListsMoves R lam k mu (moves k mu)) :
    HoldsMoves R lam k (fun mu => moveSet (moves k mu)) := by
  intro mu hm p
  have hL := hmv mu hm
  simp only [moveSet, List.mem_toFinset, List.mem_map]
  constructor
  · rintro ⟨m, hmm, rfl⟩
    exact (hL.sound m hmm).2.congr (by simp)
  · intro h
    obtain ⟨m, hmm, h1, h2⟩ := hL.complete _ _ h
    refine ⟨m, hmm, Prod.ext h1 ?_⟩
    ext b
    simp [h2]

open scoped Classical in
theorem moveSum_eq (hmv : ∀ mu, IsShape R.sh mu → ListsMoves R lam k mu (moves k mu)) {Q : Nat × Nat → Prop}
    (hm : IsShape R.sh mu) (hQ : ∀ nu S, IsMove R lam k mu nu S → ∀ b, S b → Q b) (x : K) (f : List Nat → K) :
    ∑ m ∈ (moves k mu).toFinset, x ^ m.2.toFinset.card * f m.1 =
      moveSum (fun mu => moveSet (moves k mu)) x Q f mu := by
  have hL := hmv mu hm
  have hH := holdsMoves hmv mu hm
  unfold moveSum
  have hfil : (moveSet (moves k mu)).filter (fun p => ∀ b ∈ p.2, Q b) = moveSet (moves k mu) := by
    refine Finset.filter_true_of_mem (fun p hp b hb => ?_)
    exact hQ p.1 _ ((hH p).1 hp) b hb
  rw [hfil]
  refine Finset.sum_bij (fun m _ => (m.1, m.2.toFinset)) ?_ ?_ ?_ ?_
  · intro m hmm
    simp only [moveSet, List.mem_toFinset, List.mem_map]
    exact ⟨m, List.mem_toFinset.1 hmm, rfl⟩
  · intro m hmm m' hmm' he
    obtain ⟨h1, h2⟩ := Prod.mk_inj.1 he
    refine hL.unique m (List.mem_toFinset.1 hmm) m' (List.mem_toFinset.1 hmm') h1 (fun b => ?_)
    rw [← List.mem_toFinset, h2, List.mem_toFinset]
  · intro p hp
    simp only [moveSet, List.mem_toFinset, List.mem_map] at hp
    obtain ⟨m, hmm, rfl⟩ := hp
    exact ⟨m, List.mem_toFinset.2 hmm, rfl⟩
  · intro m _
    rfl

/-- How many boxes hold a letter. -/
def cardOm (_ : Nat) (S : Finset (Nat × Nat)) : Nat := S.card

theorem WG_pair {dp : Bool} (hdp : R.sh = false → dp = true) (hinj : Function.Injective R.val)
    (hrow : ∀ k, R.rowRep k ↔ k % 2 = 0) (hcol : ∀ k, R.colRep k ↔ k % 2 = 1)
    (hdiag : ∀ k, R.diag k ↔ dp = true ∨ k % 2 = 0) (hlam : IsShape R.sh lam)
    (hmv : ∀ k mu, IsShape R.sh mu → ListsMoves R lam (k + 1) mu (moves (k + 1) mu))
    {lo : Int} (hlo : R.sh = true → lo = 0) (N : Nat) (k : Nat) (hm : InBand R lam lo (lo + (N + 1 : Nat)) mu)
    (z : Nat → K) (hz : z (2 * k + 1) = z (2 * k)) :
    WG (genTabs R lam moves (2 * k + 2) mu) (2 * k + 2) (tabWeight R cardOm) z =
      pairOp R.sh R.sv dp lam lo N (z (2 * k)) (fun nu =>
        WG (genTabs R lam moves (2 * k) nu) (2 * k) (tabWeight R cardOm) z) mu := by
  have step : ∀ (k : Nat) (mu : List Nat), IsShape R.sh mu →
      WG (genTabs R lam moves (k + 1) mu) (k + 1) (tabWeight R cardOm) z =
      ∑ m ∈ (moves (k + 1) mu).toFinset, z k ^ m.2.toFinset.card *
        WG (genTabs R lam moves k m.1) k (tabWeight R cardOm) z := fun k mu hm => WG_succ hinj hlam hmv cardOm k hm z
  -- the primed letter
  have h1 : ∀ nu, InBand R lam lo (lo + (N + 1 : Nat)) nu →
      WG (genTabs R lam moves (2 * k + 1) nu) (2 * k + 1) (tabWeight R cardOm) z =
        asc (fun i : Nat => boxOp R.sh lam (svBeta K R.sv) (lo + i)) (z (2 * k)) (if dp then 0 else 1)
          (if dp then N + 1 else N) (fun nu => WG (genTabs R lam moves (2 * k) nu) (2 * k) (tabWeight R cardOm) z) nu := by
    intro nu hnu
    rw [step (2 * k) nu hnu.1]
    rw [moveSum_eq (R := R) (lam := lam) (moves := moves) (f := fun nu =>
      WG (genTabs R lam moves (2 * k) nu) (2 * k) (tabWeight R cardOm) z) (hmv (2 * k)) (Q := fun b => lo + (if dp then 0 else 1 : Nat) ≤ cont b) hnu.1]
    · rw [moveSum_asc (R := R) (lo := lo) (N := N + 1) (holdsMoves (hmv (2 * k))) (by rw [hrow]; omega)
        (by rw [hcol]; omega) _ _ (if dp then N + 1 else N) (if dp then 0 else 1) (by cases dp <;> simp; omega) ?_ nu hnu]
      cases hdp' : dp with
      | true => left; rw [hdiag]; exact Or.inl hdp'
      | false =>
        right
        cases hsh : R.sh with
        | false => rw [hdp hsh] at hdp'; simp at hdp'
        | true =>
          intro i hi
          have := hlo hsh
          simp at hi
          omega
    · intro rho S hmove b hb
      have hin := hnu.2.2 b (hmove.inside b hb).1
      cases hdp' : dp with
      | true => simpa using hin.1
      | false =>
        cases hsh : R.sh with
        | false => rw [hdp hsh] at hdp'; simp at hdp'
        | true =>
          have hlo0 := hlo hsh
          have : cont b ≠ 0 := by
            intro h0
            obtain ⟨i, j⟩ := b
            simp only [cont] at h0
            obtain rfl : j = i := by omega
            have := (hdiag _).1 (hmove.diag j hb)
            rw [hdp'] at this
            simp at this
          simp
          omega
  rw [step (2 * k + 1) mu hm.1, hz]
  rw [moveSum_eq (R := R) (lam := lam) (moves := moves) (f := fun nu =>
      WG (genTabs R lam moves (2 * k + 1) nu) (2 * k + 1) (tabWeight R cardOm) z) (hmv (2 * k + 1))
    (Q := fun b => cont b < lo + (N + 1 : Nat)) hm.1 (fun rho S hmove b hb => (hm.2.2 b (hmove.inside b hb).1).2)]
  rw [moveSum_desc (R := R) (hi := lo + (N + 1 : Nat)) (holdsMoves (hmv (2 * k + 1))) (by rw [hrow]; omega)
    (by rw [hcol]; omega) (by rw [hdiag]; right; omega) _ _ (N + 1) mu hm]
  rw [desc_congr 0 (N + 1) h1 mu hm, pairOp, Module.End.mul_apply]

/-! ### bands -/

theorem exists_band {sh : Bool} (hm : IsShape sh mu) : ∃ (lo : Int) (N : Nat), (sh = true → lo = 0) ∧
    ∀ b ∈ shapeSet sh mu, lo ≤ cont b ∧ cont b < lo + (N + 1 : Nat) := by
  have hlen : ∀ i, 0 < mu.getD i 0 → i < mu.length := by
    intro i hi
    by_contra hc
    rw [List.getD_eq_default _ _ (by omega)] at hi
    omega
  have hsum : ∀ i, mu.getD i 0 ≤ mu.sum := by
    intro i
    by_cases hi : i < mu.length
    · rw [List.getD_eq_getElem _ _ hi]
      exact List.single_le_sum (by simp) _ (List.getElem_mem hi)
    · rw [List.getD_eq_default _ _ (by omega)]; omega
  obtain ⟨M, hM⟩ : ∃ M, mu.sum = M := ⟨_, rfl⟩
  rw [hM] at hsum
  refine ⟨if sh then 0 else -(mu.length : Int), 2 * mu.length + M + 2, fun h => by rw [h]; rfl, ?_⟩
  rintro ⟨i, j⟩ hb
  rw [mem_shapeSet] at hb
  have h1 := hlen (i - 1) (by omega)
  have h2 := hsum (i - 1)
  simp only [cont]
  cases sh
  · simp [off] at *; omega
  · simp [off] at *; omega

theorem WG_pairs {τ : Type*} (S : Finset τ) (n : Nat) (w : τ → Nat → Nat) (y : Nat → K) :
    WG S (2 * n) w (fun j => y (j / 2)) = WG S n (fun T i => w T (2 * i) + w T (2 * i + 1)) y := by
  unfold WG
  refine Finset.sum_congr rfl (fun T _ => ?_)
  induction n with
  | zero => rfl
  | succ n ih =>
    rw [Finset.prod_range_succ, ← ih, show 2 * (n + 1) = 2 * n + 1 + 1 by ring, Finset.prod_range_succ,
      Finset.prod_range_succ, mul_assoc]
    simp only
    rw [show 2 * n / 2 = n by omega, show (2 * n + 1) / 2 = n by omega, ← pow_add]

theorem WG_map {τ : Type*} {A B : Type*} [CommRing A] [CommRing B] (φ : A →+* B) (S : Finset τ) (n : Nat)
    (w : τ → Nat → Nat) (y : Nat → A) : φ (WG S n w y) = WG S n w (fun i => φ (y i)) := by
  unfold WG
  simp [map_sum, map_prod]

theorem swapInvariant_of_field {τ : Type*} (S : Finset τ) (n : Nat) (w : τ → Nat → Nat)
    (h : ∀ j, j + 2 ≤ n → WG S n w (fun i => algebraMap (MvPolynomial ℕ ℤ) (FractionRing (MvPolynomial ℕ ℤ)) (MvPolynomial.X i)) =
      WG S n w ((fun i => algebraMap (MvPolynomial ℕ ℤ) (FractionRing (MvPolynomial ℕ ℤ)) (MvPolynomial.X i)) ∘
        Equiv.swap j (j + 1))) : SwapInvariant S n w := by
  intro j hj y
  have h1 := h j hj
  have h2 : WG S n w (fun i => (MvPolynomial.X i : MvPolynomial ℕ ℤ)) =
      WG S n w ((fun i => (MvPolynomial.X i : MvPolynomial ℕ ℤ)) ∘ Equiv.swap j (j + 1)) := by
    apply IsFractionRing.injective (MvPolynomial ℕ ℤ) (FractionRing (MvPolynomial ℕ ℤ))
    rw [WG_map, WG_map]
    exact h1
  have h3 := congrArg (MvPolynomial.aeval (R := ℤ) y) h2
  have e := WG_map (MvPolynomial.aeval (R := ℤ) y).toRingHom S n w
  have e1 := e (fun i => (MvPolynomial.X i : MvPolynomial ℕ ℤ))
  have e2 := e ((fun i => (MvPolynomial.X i : MvPolynomial ℕ ℤ)) ∘ Equiv.swap j (j + 1))
  simp only [AlgHom.toRingHom_eq_coe, RingHom.coe_coe, MvPolynomial.aeval_X, Function.comp_apply] at e1 e2
  rw [show ((fun i => (MvPolynomial.X i : MvPolynomial ℕ ℤ)) ∘ Equiv.swap j (j + 1)) =
    (fun i => MvPolynomial.X (Equiv.swap j (j + 1) i)) from rfl] at h3
  rw [e1] at h3
  rw [h3]
  exact e2

theorem exists_op_inverse {F : Type*} [Field F] {β x : F} (h : 1 + β * x ≠ 0) : ∃ x', op β x x' = 0 := by
  refine ⟨-x / (1 + β * x), ?_⟩
  have h1 : -x / (1 + β * x) * (1 + β * x) = -x := div_mul_cancel₀ _ h
  unfold op
  linear_combination h1

theorem one_add_X_ne (sv : Bool) (i : Nat) : (1 : FractionRing (MvPolynomial ℕ ℤ)) +
    svBeta (FractionRing (MvPolynomial ℕ ℤ)) sv * algebraMap (MvPolynomial ℕ ℤ) _ (MvPolynomial.X i) ≠ 0 := by
  cases sv with
  | false => simp [svBeta]
  | true =>
    simp only [svBeta, if_true, one_mul]
    intro h
    have h1 : algebraMap (MvPolynomial ℕ ℤ) (FractionRing (MvPolynomial ℕ ℤ)) (1 + MvPolynomial.X i) = algebraMap _ _ 0 := by
      rw [map_add, map_one, map_zero]; exact h
    have h2 := IsFractionRing.injective (MvPolynomial ℕ ℤ) (FractionRing (MvPolynomial ℕ ℤ)) h1
    have h3 := congrArg (MvPolynomial.eval (fun _ => (0 : ℤ))) h2
    simp at h3

/-- The number of boxes that hold `i + 1` or its primed version. -/
def markWeight (T : Tab) (i : Nat) : Nat := (boxesWith T ((i : Int) + 1)).card + (boxesWith T (-((i : Int) + 1))).card

theorem markWeight_eq (sh sv dp : Bool) (T : Tab) (i : Nat) : markWeight T i =
    tabWeight (markRules sh sv dp) cardOm T (2 * i) + tabWeight (markRules sh sv dp) cardOm T (2 * i + 1) := by
  rw [tabWeight, tabWeight, markRules_val_odd, markRules_val_even, markWeight, add_comm]
  rfl

/-- Marked tableaux: the variables may be exchanged. -/
theorem marked_swap {sh sv dp : Bool} (hdp : sh = false → dp = true) (hlam : IsShape sh lam)
    (hmv : ∀ k mu, IsShape sh mu → ListsMoves (markRules sh sv dp) lam (k + 1) mu (moves (k + 1) mu))
    (hm : IsShape sh mu) (n : Nat) :
    SwapInvariant (genTabs (markRules sh sv dp) lam moves (2 * n) mu) n markWeight := by
  have hw : (markWeight : Tab → Nat → Nat) = fun T i => tabWeight (markRules sh sv dp) cardOm T (2 * i) +
      tabWeight (markRules sh sv dp) cardOm T (2 * i + 1) := by
    funext T i
    exact markWeight_eq sh sv dp T i
  rw [hw]
  by_cases hsub : shapeSet sh lam ⊆ shapeSet sh mu
  · apply swapInvariant_of_field
    intro j hj
    obtain ⟨lo, N, hlo, hb⟩ := exists_band hm
    have hband : InBand (markRules sh sv dp) lam lo (lo + (N + 1 : Nat)) mu := ⟨hm, hsub, hb⟩
    obtain ⟨x', hx'⟩ := exists_op_inverse (one_add_X_ne sv j)
    obtain ⟨y', hy'⟩ := exists_op_inverse (one_add_X_ne sv (j + 1))
    refine swap_of_ops (InBand (markRules sh sv dp) lam lo (lo + (N + 1 : Nat))) (pairOp sh sv dp lam lo N)
      (fun n mu y => WG (genTabs (markRules sh sv dp) lam moves (2 * n) mu) n (fun T i =>
        tabWeight (markRules sh sv dp) cardOm T (2 * i) + tabWeight (markRules sh sv dp) cardOm T (2 * i + 1)) y)
      ?_ ?_ ?_ j n hj _ ?_ mu hband
    · intro x f g hfg mu hmu
      exact pairOp_congr (R := markRules sh sv dp) hfg mu hmu
    · intro k mu hmu y
      simp only [← WG_pairs]
      have := WG_pair (R := markRules sh sv dp) hdp (markRules_inj sh sv dp) (fun _ => Iff.rfl) (fun _ => Iff.rfl)
        (fun _ => Iff.rfl) hlam hmv hlo N k hmu (fun j => y (j / 2)) (by congr 1; omega)
      rw [show 2 * (k + 1) = 2 * k + 2 by ring, this, show 2 * k / 2 = k by omega]
      rfl
    · intro k mu y y' h
      unfold WG
      refine Finset.sum_congr rfl (fun T _ => Finset.prod_congr rfl (fun i hi => ?_))
      rw [h i (Finset.mem_range.1 hi)]
    · exact pairOp_comm hdp lam hlo N hx' hy'
  · have hempty : genTabs (markRules sh sv dp) lam moves (2 * n) mu = ∅ := by
      rw [Finset.eq_empty_iff_forall_notMem]
      intro T hT
      exact hsub ((mem_genTabs (markRules_inj sh sv dp) (lam := lam) hlam hmv (2 * n) (mu := mu) hm).1 hT).sub
    rw [hempty]
    intro j _ y
    simp [WG]

end Verif.Tableaux
