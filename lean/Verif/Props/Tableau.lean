import Verif.Lemmas.Count
import Verif.Spec.Tableau

/-! Properties C24-C27: generating and counting semistandard tableaux. -/

namespace Verif.Tableaux

open Part Partition Tab

attribute [-simp] List.getD_eq_getElem?_getD

/-- The boxes of `mu/nu`. -/
def Skew (mu nu : List Nat) : Set (Nat × Nat) := Diagram mu \ Diagram nu

theorem mem_skew {mu nu : List Nat} {b : Nat × Nat} : b ∈ Skew mu nu ↔ b ∈ Diagram mu ∧ b ∉ Diagram nu := Iff.rfl

/-- In a skew diagram, neighbours decide. -/
theorem semistandard_pairs {n : Nat} {mu nu : List Nat} (hm : IsPartition mu) (hn : IsPartition nu)
    {f : Nat × Nat → Int} (h : IsSemistandard n (Skew mu nu) f) :
    (∀ i j j', j < j' → (i, j) ∈ Skew mu nu → (i, j') ∈ Skew mu nu → f (i, j) ≤ f (i, j')) ∧
    (∀ i i' j, i < i' → (i, j) ∈ Skew mu nu → (i', j) ∈ Skew mu nu → f (i, j) < f (i', j)) := by
  have hma := getD_antitone hm.1
  have hna := getD_antitone hn.1
  constructor
  · intro i j j' hj
    induction j' with
    | zero => omega
    | succ k ih =>
      intro h1 h2
      by_cases hk : j = k
      · subst hk; exact h.2.1 i j h1 h2
      · have h3 : (i, k) ∈ Skew mu nu := by
          simp only [mem_skew, mem_diagram] at *
          omega
        exact le_trans (ih (by omega) h1 h3) (h.2.1 i k h3 h2)
  · intro i i' j hi
    induction i' with
    | zero => omega
    | succ k ih =>
      intro h1 h2
      by_cases hk : i = k
      · subst hk; exact h.2.2 i j h1 h2
      · have h3 : (k, j) ∈ Skew mu nu := by
          simp only [mem_skew, mem_diagram] at *
          have e1 := hma (show k - 1 ≤ k + 1 - 1 by omega)
          have e2 := hna (show i - 1 ≤ k - 1 by omega)
          simp only at e1 e2
          omega
        exact lt_trans (ih (by omega) h1 h3) (h.2.2 k j h3 h2)

/-- C24: `Tableau.semistandard(n, mu, nu)` is the set of all semistandard fillings of `mu/nu` by `1..n`, and is empty
when `nu` is not contained in `mu`. -/
theorem C24_semistandard (n : Nat) {mu nu : List Nat} (hm : IsPartition mu) (hn : IsPartition nu) (T : Tab) :
    T ∈ semistandard false nu n mu ↔ Diagram nu ⊆ Diagram mu ∧
      ∃ f, IsSemistandard n (Diagram mu \ Diagram nu) f ∧ (∀ b ∈ Diagram mu \ Diagram nu, T.get? b = some [f b]) ∧
        ∀ b ∉ Diagram mu \ Diagram nu, T.get? b = none := by
  rw [mem_semistandard hn n hm, diagram_subset]
  apply and_congr_right
  intro hsub
  constructor
  · intro h
    have hone : ∀ b ∈ Skew mu nu, ∃ x, T.ent b = [x] := by
      intro b hb
      have h1 := (h.dom b).2 hb
      have h2 := h.single rfl b
      match hl : T.ent b with
      | [] => exact absurd hl h1
      | [x] => exact ⟨x, rfl⟩
      | x :: y :: t => rw [hl] at h2; simp at h2
    refine ⟨fun b => (T.ent b).headD 0, ⟨?_, ?_, ?_⟩, ?_, ?_⟩
    · intro b hb
      obtain ⟨x, hx⟩ := hone b hb
      simp only [hx, List.headD_cons]
      exact h.range b x (by rw [hx]; simp)
    · intro i j h1 h2
      obtain ⟨x, hx⟩ := hone _ h1
      obtain ⟨y, hy⟩ := hone _ h2
      simp only [hx, hy, List.headD_cons]
      exact h.row i j (j + 1) (by omega) x (by rw [hx]; simp) y (by rw [hy]; simp)
    · intro i j h1 h2
      obtain ⟨x, hx⟩ := hone _ h1
      obtain ⟨y, hy⟩ := hone _ h2
      simp only [hx, hy, List.headD_cons]
      exact h.col i (i + 1) j (by omega) x (by rw [hx]; simp) y (by rw [hy]; simp)
    · intro b hb
      obtain ⟨x, hx⟩ := hone b hb
      simp only [get?_eq_of_ent h.ne, hx, List.headD_cons]
      simp
    · intro b hb
      rw [get?_eq_of_ent h.ne, if_pos]
      by_contra hc
      exact hb ((h.dom b).1 hc)
  · rintro ⟨f, hf, h1, h2⟩
    have hp := semistandard_pairs hm hn hf
    have e1 : ∀ b ∈ Skew mu nu, T.ent b = [f b] := fun b hb => by rw [ent, h1 b hb]; rfl
    have e2 : ∀ b ∉ Skew mu nu, T.ent b = [] := fun b hb => by rw [ent, h2 b hb]; rfl
    have hmem : ∀ b x, x ∈ T.ent b ↔ b ∈ Skew mu nu ∧ x = f b := by
      intro b x
      by_cases hb : b ∈ Skew mu nu
      · rw [e1 b hb]; simp [hb]
      · rw [e2 b hb]; simp [hb]
    refine ⟨?_, ?_, ?_, ?_, ?_, ?_, ?_⟩
    · intro b
      by_cases hb : b ∈ Skew mu nu
      · rw [h1 b hb]; simp
      · rw [h2 b hb]; simp
    · intro b
      by_cases hb : b ∈ Skew mu nu
      · rw [e1 b hb]; exact ⟨fun _ => hb, fun _ => by simp⟩
      · rw [e2 b hb]; exact ⟨fun h => absurd rfl h, fun h => absurd h hb⟩
    · intro b
      by_cases hb : b ∈ Skew mu nu
      · rw [e1 b hb]; simp
      · rw [e2 b hb]; simp
    · intro b x hx
      obtain ⟨hb, rfl⟩ := (hmem b x).1 hx
      exact hf.1 b hb
    · intro _ b
      by_cases hb : b ∈ Skew mu nu
      · rw [e1 b hb]; simp
      · rw [e2 b hb]; simp
    · intro i j j' hj x hx y hy
      obtain ⟨hb, rfl⟩ := (hmem _ x).1 hx
      obtain ⟨hb', rfl⟩ := (hmem _ y).1 hy
      exact hp.1 i j j' hj hb hb'
    · intro i i' j hi x hx y hy
      obtain ⟨hb, rfl⟩ := (hmem _ x).1 hx
      obtain ⟨hb', rfl⟩ := (hmem _ y).1 hy
      exact hp.2 i i' j hi hb hb'

/-- C25: `Tableau.semistandard_setvalued(n, mu, nu)` is the set of all fillings of `mu/nu` by nonempty (strictly
increasing tuples, that is) sets such that every choice of one element from each box is semistandard. -/
theorem C25_setvalued (n : Nat) {mu nu : List Nat} (hm : IsPartition mu) (hn : IsPartition nu) (T : Tab) :
    T ∈ semistandard true nu n mu ↔ Diagram nu ⊆ Diagram mu ∧
      (∀ b, (T.get? b).isSome ↔ b ∈ Diagram mu \ Diagram nu) ∧
      (∀ b s, T.get? b = some s → s ≠ [] ∧ s.Pairwise (· < ·)) ∧
      ∀ f : Nat × Nat → Int, (∀ b s, T.get? b = some s → f b ∈ s) →
        IsSemistandard n (Diagram mu \ Diagram nu) f := by
  rw [mem_semistandard hn n hm, diagram_subset]
  apply and_congr_right
  intro hsub
  constructor
  · intro h
    have hg := get?_eq_of_ent h.ne
    have hs : ∀ b s, T.get? b = some s → T.ent b = s := fun b s hb => by rw [ent, hb]; rfl
    refine ⟨?_, ?_, ?_⟩
    · intro b
      rw [show (b ∈ Diagram mu \ Diagram nu) ↔ b ∈ Diagram mu ∧ b ∉ Diagram nu from Iff.rfl, ← h.dom b, hg b]
      by_cases he : T.ent b = [] <;> simp [he]
    · intro b s hb
      have e := hs b s hb
      refine ⟨?_, e ▸ h.sorted b⟩
      rintro rfl
      exact h.ne b hb
    · intro f hf
      have hf' : ∀ b ∈ Skew mu nu, f b ∈ T.ent b := by
        intro b hb
        have := (h.dom b).2 hb
        have hb' := hg b
        rw [if_neg this] at hb'
        exact hf b _ hb'
      refine ⟨fun b hb => h.range b _ (hf' b hb), ?_, ?_⟩
      · intro i j h1 h2
        exact h.row i j (j + 1) (by omega) _ (hf' _ h1) _ (hf' _ h2)
      · intro i j h1 h2
        exact h.col i (i + 1) j (by omega) _ (hf' _ h1) _ (hf' _ h2)
  · rintro ⟨h1, h2, h3⟩
    have hne : ∀ b, T.get? b ≠ some [] := fun b hb => (h2 b [] hb).1 rfl
    have hdom : ∀ b, T.ent b ≠ [] ↔ b ∈ Skew mu nu := by
      intro b
      rw [show b ∈ Skew mu nu ↔ b ∈ Diagram mu \ Diagram nu from Iff.rfl, ← h1 b, get?_eq_of_ent hne b]
      by_cases he : T.ent b = [] <;> simp [he]
    have hdm : ∀ b x, x ∈ T.ent b → b ∈ Skew mu nu := fun b x hx => (hdom b).1 (List.ne_nil_of_mem hx)
    -- a choice function through two prescribed boxes
    have hch : ∀ b b' x y, b ≠ b' → x ∈ T.ent b → y ∈ T.ent b' → ∃ f : Nat × Nat → Int,
        IsSemistandard n (Skew mu nu) f ∧ f b = x ∧ f b' = y := by
      intro b b' x y hbb hx hy
      refine ⟨fun c => if c = b then x else if c = b' then y else (T.ent c).headD 0, h3 _ ?_, by simp, ?_⟩
      · intro c s hc
        have e : T.ent c = s := by rw [ent, hc]; rfl
        split
        · rename_i h; rw [← e, h]; exact hx
        · split
          · rename_i h; rw [← e, h]; exact hy
          · rw [e]
            match s, (h2 c s hc).1 with
            | a :: t, _ => simp
      · simp [Ne.symm hbb]
    refine ⟨hne, hdom, ?_, ?_, by simp, ?_, ?_⟩
    · intro b
      by_cases he : T.ent b = []
      · rw [he]; simp
      · have := get?_eq_of_ent hne b
        rw [if_neg he] at this
        exact (h2 b _ this).2
    · intro b x hx
      have hex : ∃ f : Nat × Nat → Int, IsSemistandard n (Skew mu nu) f ∧ f b = x := by
        refine ⟨fun c => if c = b then x else (T.ent c).headD 0, h3 _ ?_, by simp⟩
        intro c s hc
        have e : T.ent c = s := by rw [ent, hc]; rfl
        split
        · rename_i h; rw [← e, h]; exact hx
        · rw [e]
          match s, (h2 c s hc).1 with
          | a :: t, _ => simp
      obtain ⟨f, hf, rfl⟩ := hex
      exact hf.1 b (hdm b _ hx)
    · intro i j j' hj x hx y hy
      obtain ⟨f, hf, rfl, rfl⟩ := hch (i, j) (i, j') x y (by simp; omega) hx hy
      exact (semistandard_pairs hm hn hf).1 i j j' hj (hdm _ _ hx) (hdm _ _ hy)
    · intro i i' j hi x hx y hy
      obtain ⟨f, hf, rfl, rfl⟩ := hch (i, j) (i', j) x y (by simp; omega) hx hy
      exact (semistandard_pairs hm hn hf).2 i i' j hi (hdm _ _ hx) (hdm _ _ hy)

/-- The generator ends: the loop in `_horizontal_strips` runs out of candidates. -/
theorem C24_terminates {mu nu : List Nat} (hm : IsPartition mu) (hn : IsPartition nu) :
    ∃ l, horizontalStrips? mu nu = some l := by
  by_cases hc : contains mu nu = true
  · exact ⟨_, (horizontalStrips_spec hm hn hc).1⟩
  · exact ⟨[], by rw [horizontalStrips?, if_neg hc]⟩

/-- A semistandard tableau of shape (2, 1)/(): first row 1 1, second row 2. -/
example : IsPartition [2, 1] ∧ IsPartition [] ∧
    (Tab.empty.set (1, 1) [1] |>.set (1, 2) [1] |>.set (2, 1) [2]) ∈ semistandard false [] 2 [2, 1] := by
  refine ⟨⟨by decide, by decide⟩, ⟨by decide, by decide⟩, by decide +kernel⟩

/-- A set-valued tableau of shape (2)/(): boxes {1, 2} and {2}. -/
example : (Tab.empty.set (1, 1) [1, 2] |>.set (1, 2) [2]) ∈ semistandard true [] 2 [2] := by decide +kernel

/-- C26: for a partition `alpha` with at most `n` parts, the count under the key `alpha` is the number of tableaux
with `alpha_i` entries `i`; all other keys have the value 0.  (`sv = true`: `count_semistandard_setvalued`.) -/
theorem C26_counts (sv : Bool) (n : Nat) {mu nu : List Nat} (hm : IsPartition mu) (hn : IsPartition nu)
    (alpha : List Nat) :
    (IsPartition alpha ∧ alpha.length ≤ n → (countSemistandard sv nu n mu).getD alpha 0 =
      ((semistandard sv nu n mu).filter (fun T => ∀ i < n,
        (T.items.flatMap Prod.snd).count ((i : Int) + 1) = alpha.getD i 0)).card) ∧
    (¬ (IsPartition alpha ∧ alpha.length ≤ n) → (countSemistandard sv nu n mu).getD alpha 0 = 0) :=
  count_spec hn n hm alpha

example : (countSemistandard true [] 2 [2, 1]).getD [2, 1] 0 = 1 ∧
    (countSemistandard true [] 2 [2, 1]).getD [2, 2] 0 = 1 := by decide +kernel

/-- C27: `nchoosek(m, k)` times `k!` is `m (m-1) ... (m-k+1)`, for all integers `m`. -/
theorem C27_nchoosek (m : Int) (k : Nat) :
    (k.factorial : Int) * nchoosek m k = ∏ i ∈ Finset.range k, (m - (i : Int)) := by
  rw [nchoosek_eq, prod_eq_factorial_mul_choose]

/-- C27: for `m ≥ 0` it is the number of `k`-element subsets of an `m`-element set. -/
theorem C27_subsets (m k : Nat) :
    nchoosek m k = ((Finset.powersetCard k (Finset.range m)).card : Int) := by
  rw [nchoosek_natCast, Finset.card_powersetCard, Finset.card_range]

/-- C27: no floor division discards a remainder: the value before the division by `j + 1` is a multiple of it. -/
theorem C27_exact (m : Int) (k j : Nat) (hj : j < k) :
    ((j : Int) + 1) ∣ (List.range j).foldl (fun ans (i : Nat) => Int.fdiv ans (i + 1))
      ((List.range k).foldl (fun ans (i : Nat) => ans * (m - i)) 1) := by
  rw [foldl_mul_eq_prod, prod_eq_factorial_mul_choose]
  have h1 : (j + 1).factorial ∣ k.factorial := Nat.factorial_dvd_factorial hj
  obtain ⟨c, hc⟩ := h1
  have h2 : ((k.factorial : Nat) : Int) * Ring.choose m k =
      (j.factorial : Int) * (((j : Int) + 1) * (c * Ring.choose m k)) := by
    rw [hc, Nat.factorial_succ]; push_cast; ring
  rw [h2, foldl_fdiv]
  exact dvd_mul_right _ _

example : nchoosek (-3) 4 = 15 ∧ nchoosek 5 2 = 10 := by decide

end Verif.Tableaux
