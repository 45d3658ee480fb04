import Verif.Lemmas.OperatorsRemove
import Verif.Lemmas.OperatorsGq

/-! Properties C96 to C100: the operators of operators.py.

`coef r nu` is the coefficient of `nu` in what an operator returns: 0 if `r` is the int `0`. -/

attribute [-simp] List.getD_eq_getElem?_getD

namespace Verif.Operators

open Verif.Part Partition Dualops Symm

section

variable {R : Type*} [CommRing R] [DecidableEq R]

/-! ## C96: adding a box -/

/-- C96: `operator_shifted_add(index)` raises no exception on a vector `v` whose keys are strict partitions.  The keys of
the result are strict partitions with nonzero coefficients.  If the shifted diagram of `nu` has a corner on the diagonal
`|index|`, then the coefficient of `nu` is `beta * v[nu] + v[mu]`, where `mu` is `nu` without this corner.  Otherwise the
coefficient is 0.  A tuple is treated as the vector with one term. -/
theorem C96_shifted_add (beta : R) (index : Int) {v : Vec (List Nat) R} (hv : ∀ mu ∈ v.dict.keys, IsStrict mu) :
    ∃ r, operatorShiftedAdd beta index (.res (some v)) = some r ∧
      (∀ w, r = some w → ∀ mu ∈ w.dict.keys, IsStrict mu ∧ w.get mu ≠ 0) ∧
      (∀ nu, IsStrict nu → ∀ i, (i, i + index.natAbs) ∈ Corners (ShiftedDiagram nu) → ∃ mu, IsStrict mu ∧
        ShiftedDiagram mu = ShiftedDiagram nu \ {(i, i + index.natAbs)} ∧ coef r nu = beta * v.get nu + v.get mu) ∧
      ∀ nu, (∀ i, (i, i + index.natAbs) ∉ Corners (ShiftedDiagram nu)) → coef r nu = 0 := by
  obtain ⟨r, h1, h2, h3, h4⟩ := shiftedAddFn_spec beta index hv
  refine ⟨r, h1, fun w hw mu hmu => ⟨h3 w hw mu hmu, (Vec.mem_keys_iff (h2 w hw) mu).1 hmu⟩, fun nu hn i hi => ?_,
    fun nu hno => ?_⟩
  · have hc := (inner_iff hn).1 ⟨i, (findShiftedInnerCorner_spec hn _ _).2 hi⟩
    obtain ⟨j, hj, e⟩ := diagram_lower hn hc
    have hij : (j, j + index.natAbs) = (i, i + index.natAbs) := corner_unique hn hj hi (by dsimp only; omega)
    refine ⟨lower index.natAbs nu, lower_strict hn hc.2, by rw [e, hij], ?_⟩
    rw [h4 nu hn, addCoef, if_pos hc]
  · by_cases hn : IsStrict nu
    · rw [h4 nu hn, addCoef, if_neg]
      intro hc
      obtain ⟨j, hj, _⟩ := diagram_lower hn hc
      exact hno j hj
    · exact coef_nonstrict h3 hn

theorem C96_tuple (beta : R) (index : Int) (mu : List Nat) :
    operatorShiftedAdd beta index (.tup mu) = operatorShiftedAdd beta index (.res (some (single mu 1))) ∧
      ∀ nu, (single mu (1 : R)).get nu = if mu = nu then 1 else 0 :=
  ⟨rfl, get_single mu 1⟩

/-! ## C97: the relations -/

/-- The operators `operator_shifted_add(i)` for the `i` in a list, the first one first.  Here the int `0` is sent to the int
`0`; see `C97_zero_raises`. -/
def runAdd (beta : R) : List Nat → Res R → Option (Res R)
  | [], r => some r
  | _ :: _, none => some none
  | i :: l, some v => (operatorShiftedAdd beta i (.res (some v))).bind (runAdd beta l)

theorem runAdd_zero (beta : R) (l : List Nat) : runAdd beta l none = some none := by
  cases l <;> rfl

theorem runAdd_spec (beta : R) (l : List Nat) : ∀ r, StrictRes r → ∃ s, runAdd beta l r = some s ∧ StrictRes s ∧
    ∀ nu, IsStrict nu → coef s nu = l.foldl (fun f i => addCoef beta i f) (coef r) nu := by
  induction l with
  | nil => exact fun r hr => ⟨r, rfl, hr, fun nu _ => rfl⟩
  | cons i l ih =>
    intro r hr
    have hcongr : ∀ (l : List Nat) (f g : List Nat → R), (∀ nu, IsStrict nu → f nu = g nu) → ∀ nu, IsStrict nu →
        l.foldl (fun f i => addCoef beta i f) f nu = l.foldl (fun f i => addCoef beta i f) g nu := by
      intro l
      induction l with
      | nil => exact fun f g h => h
      | cons i l ih =>
        intro f g h
        refine ih _ _ (fun nu hn => ?_)
        dsimp only
        rw [addCoef, addCoef]
        by_cases hc : i + 1 ∈ nu ∧ i ∉ nu
        · rw [if_pos hc, if_pos hc, h nu hn, h _ (lower_strict hn hc.2)]
        · rw [if_neg hc, if_neg hc]
    cases r with
    | none =>
      refine ⟨none, rfl, hr, fun nu hn => ?_⟩
      have hz : ∀ l : List Nat, l.foldl (fun f i => addCoef beta i f) (coef (none : Res R)) = coef (none : Res R) := by
        intro l
        induction l with
        | nil => rfl
        | cons i l ih =>
          rw [List.foldl_cons]
          have : addCoef beta i (coef (none : Res R)) = coef (none : Res R) := by
            funext nu
            simp [addCoef, coef]
          rw [this, ih]
      rw [hz]
    | some v =>
      obtain ⟨s, h1, _, h3, h4⟩ := shiftedAddFn_spec beta (i : Int) (hr v rfl)
      obtain ⟨t, t1, t2, t3⟩ := ih s h3
      refine ⟨t, ?_, t2, fun nu hn => ?_⟩
      · rw [runAdd]
        change (shiftedAddFn beta (i : Int) v).bind _ = _
        rw [h1]
        exact t1
      · rw [t3 nu hn, List.foldl_cons]
        exact hcongr l _ _ (fun nu hn => by rw [h4 nu hn, Int.natAbs_natCast]; rfl) nu hn

variable {nu : List Nat} {i j : Nat}

/-- C97: applying `operator_shifted_add(i)` twice is the same as applying it once and multiplying by `beta`. -/
theorem C97_square (beta : R) (i : Nat) {v : Vec (List Nat) R} (hv : ∀ mu ∈ v.dict.keys, IsStrict mu) :
    ∃ r s, runAdd beta [i, i] (some v) = some r ∧ runAdd beta [i] (some v) = some s ∧
      ∀ nu, coef r nu = beta * coef s nu := by
  have hr : StrictRes (some v) := fun w hw => Option.some.inj hw ▸ hv
  obtain ⟨r, h1, h2, h3⟩ := runAdd_spec beta [i, i] _ hr
  obtain ⟨s, s1, s2, s3⟩ := runAdd_spec beta [i] _ hr
  refine ⟨r, s, h1, s1, fun nu => ?_⟩
  by_cases hn : IsStrict nu
  · rw [h3 nu hn, s3 nu hn]
    change addCoef beta i (addCoef beta i _) nu = beta * addCoef beta i _ nu
    rw [addCoef]
    by_cases hc : i + 1 ∈ nu ∧ i ∉ nu
    · rw [if_pos hc]
      have : addCoef beta i (coef (some v)) (lower i nu) = 0 := by
        rw [addCoef, if_neg]
        rintro ⟨h, _⟩
        rw [mem_lower hc.1] at h
        omega
      rw [this, add_zero]
    · rw [if_neg hc, addCoef, if_neg hc, mul_zero]
  · rw [coef_nonstrict h2 hn, coef_nonstrict s2 hn, mul_zero]

/-- C97: for `|i - j| ≥ 2` the operators commute. -/
theorem C97_commute (beta : R) (hij : i + 2 ≤ j) {v : Vec (List Nat) R} (hv : ∀ mu ∈ v.dict.keys, IsStrict mu) :
    ∃ r s, runAdd beta [i, j] (some v) = some r ∧ runAdd beta [j, i] (some v) = some s ∧ ∀ nu, coef r nu = coef s nu := by
  have hr : StrictRes (some v) := fun w hw => Option.some.inj hw ▸ hv
  obtain ⟨r, h1, h2, h3⟩ := runAdd_spec beta [i, j] _ hr
  obtain ⟨s, s1, s2, s3⟩ := runAdd_spec beta [j, i] _ hr
  refine ⟨r, s, h1, s1, fun nu => ?_⟩
  by_cases hn : IsStrict nu
  · rw [h3 nu hn, s3 nu hn]
    change addCoef beta j (addCoef beta i _) nu = addCoef beta i (addCoef beta j _) nu
    by_cases hi : i + 1 ∈ nu ∧ i ∉ nu
    · by_cases hj : j + 1 ∈ nu ∧ j ∉ nu
      · have hli : j + 1 ∈ lower i nu ∧ j ∉ lower i nu := by
          rw [mem_lower hi.1, mem_lower hi.1]
          exact ⟨⟨by omega, Or.inr ⟨hj.1, by omega⟩⟩, fun h => by
            rcases h.2 with h | h
            · omega
            · exact hj.2 h.1⟩
        have hlj : i + 1 ∈ lower j nu ∧ i ∉ lower j nu := by
          rw [mem_lower hj.1, mem_lower hj.1]
          exact ⟨⟨by omega, Or.inr ⟨hi.1, by omega⟩⟩, fun h => by
            rcases h.2 with h | h
            · omega
            · exact hi.2 h.1⟩
        have hll : lower i (lower j nu) = lower j (lower i nu) := by
          refine strict_ext (lower_strict (lower_strict hn hj.2) hlj.2) (lower_strict (lower_strict hn hi.2) hli.2)
            (fun t => ?_)
          rw [mem_lower hlj.1, mem_lower hli.1, mem_lower hj.1, mem_lower hi.1]
          by_cases t1 : t = i
          · subst t1
            constructor
            · rintro ⟨h, _⟩
              exact ⟨h, Or.inr ⟨⟨h, Or.inl rfl⟩, by omega⟩⟩
            · rintro ⟨h, _⟩
              exact ⟨h, Or.inl rfl⟩
          · by_cases t2 : t = j
            · subst t2
              constructor
              · rintro ⟨h, _⟩
                exact ⟨h, Or.inl rfl⟩
              · rintro ⟨h, _⟩
                exact ⟨h, Or.inr ⟨⟨h, Or.inl rfl⟩, by omega⟩⟩
            · tauto
        rw [addCoef, if_pos hj, addCoef, if_pos hi, addCoef, if_pos hlj, addCoef, if_pos hi, addCoef, if_pos hj, addCoef,
          if_pos hli, hll]
        ring
      · have hlj : ¬ (j + 1 ∈ lower i nu ∧ j ∉ lower i nu) := by
          rw [mem_lower hi.1, mem_lower hi.1]
          rintro ⟨⟨_, h⟩, h'⟩
          rcases h with h | h
          · omega
          · refine hj ⟨h.1, fun hjn => h' ⟨by omega, Or.inr ⟨hjn, by omega⟩⟩⟩
        rw [addCoef, if_neg hj, addCoef, if_pos hi, addCoef, if_neg hj, addCoef, if_neg hlj]
        ring
    · by_cases hj : j + 1 ∈ nu ∧ j ∉ nu
      · have hli : ¬ (i + 1 ∈ lower j nu ∧ i ∉ lower j nu) := by
          rw [mem_lower hj.1, mem_lower hj.1]
          rintro ⟨⟨_, h⟩, h'⟩
          rcases h with h | h
          · omega
          · refine hi ⟨h.1, fun hin => h' ⟨hn.2 _ hin, Or.inr ⟨hin, by omega⟩⟩⟩
        rw [addCoef, if_pos hj, addCoef, if_neg hi, addCoef, if_neg hli, addCoef, if_neg hi]
        ring
      · rw [addCoef, if_neg hj, addCoef, if_neg hi]
  · rw [coef_nonstrict h2 hn, coef_nonstrict s2 hn]

/-- C97: for `i ≥ 1`, applying the operators with the indices `i`, `i + 1`, `i` gives 0. -/
theorem C97_braid (beta : R) (hi0 : 1 ≤ i) {v : Vec (List Nat) R} (hv : ∀ mu ∈ v.dict.keys, IsStrict mu) :
    ∃ r, runAdd beta [i, i + 1, i] (some v) = some r ∧ ∀ nu, coef r nu = 0 := by
  have hr : StrictRes (some v) := fun w hw => Option.some.inj hw ▸ hv
  obtain ⟨r, h1, h2, h3⟩ := runAdd_spec beta [i, i + 1, i] _ hr
  refine ⟨r, h1, fun nu => ?_⟩
  by_cases hn : IsStrict nu
  · rw [h3 nu hn]
    change addCoef beta i (addCoef beta (i + 1) (addCoef beta i _)) nu = 0
    rw [addCoef]
    by_cases hc : i + 1 ∈ nu ∧ i ∉ nu
    · have hil : i ∈ lower i nu := (mem_lower hc.1).2 ⟨by omega, Or.inl rfl⟩
      rw [if_pos hc, addCoef, if_neg (fun h => h.2 hc.1), addCoef]
      by_cases hd : i + 1 + 1 ∈ lower i nu ∧ i + 1 ∉ lower i nu
      · rw [if_pos hd, addCoef, if_neg (fun h => h.2 hil), addCoef, if_neg]
        · ring
        · exact fun h => h.2 ((mem_lower hd.1).2 ⟨by omega, Or.inr ⟨hil, by omega⟩⟩)
      · rw [if_neg hd]
        ring
    · rw [if_neg hc]
  · exact coef_nonstrict h2 hn

/-- C97: for `i ≥ 0`, applying the operators with the indices `i + 1`, `i`, `i + 1` gives 0. -/
theorem C97_braid' (beta : R) (i : Nat) {v : Vec (List Nat) R} (hv : ∀ mu ∈ v.dict.keys, IsStrict mu) :
    ∃ r, runAdd beta [i + 1, i, i + 1] (some v) = some r ∧ ∀ nu, coef r nu = 0 := by
  have hr : StrictRes (some v) := fun w hw => Option.some.inj hw ▸ hv
  obtain ⟨r, h1, h2, h3⟩ := runAdd_spec beta [i + 1, i, i + 1] _ hr
  refine ⟨r, h1, fun nu => ?_⟩
  by_cases hn : IsStrict nu
  · rw [h3 nu hn]
    change addCoef beta (i + 1) (addCoef beta i (addCoef beta (i + 1) _)) nu = 0
    rw [addCoef]
    by_cases hc : i + 1 + 1 ∈ nu ∧ i + 1 ∉ nu
    · have hil : i + 1 ∈ lower (i + 1) nu := (mem_lower hc.1).2 ⟨by omega, Or.inl rfl⟩
      rw [if_pos hc, addCoef, if_neg (fun h => hc.2 h.1), addCoef]
      by_cases hd : i + 1 ∈ lower (i + 1) nu ∧ i ∉ lower (i + 1) nu
      · rw [if_pos hd, addCoef, if_neg (fun h => h.2 hil), addCoef, if_neg]
        · ring
        · rintro ⟨h, _⟩
          rw [mem_lower hd.1, mem_lower hc.1] at h
          omega
      · rw [if_neg hd]
        ring
    · rw [if_neg hc]
  · exact coef_nonstrict h2 hn

end

/-- C97: the relation of `C97_braid` does not hold for `i = 0`: the indices `0`, `1`, `0` send `()` to `(2, 1)`. -/
theorem C97_braid_zero : ∃ r, runAdd (5 : ℤ) [0, 1, 0] (some (single [] 1)) = some r ∧ coef r [2, 1] = 1 :=
  ⟨_, rfl, by decide +kernel⟩

/-- C97: in the code the int `0` cannot be fed into an operator.  For instance `operator_shifted_add(1)(())` returns `0`,
and then `operator_shifted_add(0)` of this raises an exception. -/
theorem C97_zero_raises : operatorShiftedAdd (5 : ℤ) 1 (.tup []) = some none ∧
    ∀ i : Int, operatorShiftedAdd (5 : ℤ) i (.res none) = none :=
  ⟨rfl, fun _ => rfl⟩

-- tests/test_operators.py
example : (∀ mu ∈ (single [3, 1] (-1 : ℤ)).dict.keys, IsStrict mu) ∧
    (operatorShiftedAdd (5 : ℤ) 1 (.res (some (Vec.add (single [1] 2) (single [3, 1] (-1)))))).map
      (fun r => [coef r [2], coef r [3, 2], coef r [1], coef r [3, 1]]) = some [2, -1, 0, 0] ∧
    (operatorShiftedAdd (5 : ℤ) 0 (.tup [1])).map (fun r => coef r [1]) = some 5 ∧
    (runAdd (5 : ℤ) [0, 2] (some (single [2] 1))).map (fun r => coef r [3, 1]) = some 1 := by
  refine ⟨strictKeys_single (by simp [IsStrict]) _, by decide +kernel, by decide +kernel, by decide +kernel⟩

/-! ## C98: the functions GQ -/

/-- C98: for a strict partition `mu` and one variable `y`, the coefficient of `nu` in `operator_AL(n, y)(operator_AR(n, y)(mu))`
is `stable_grothendieck_q_doublebar(1, nu, mu)` at `y`, for all strict `nu` with `nu_1 ≤ n + 1`. -/
theorem C98_one (n : Nat) {mu : List Nat} (hm : IsStrict mu) (y : Poly) :
    ∃ s w, operatorAR (PolyVal.mk Poly.beta) n (PolyVal.mk y) (.tup mu) = some s ∧
      operatorAL (PolyVal.mk Poly.beta) n (PolyVal.mk y) (.res s) = some (some w) ∧
      (∀ nu ∈ w.dict.keys, IsStrict nu ∧ w.get nu ≠ 0) ∧
      ∀ nu, IsStrict nu → nu.headD 0 ≤ n + 1 → ∃ f, stableGrothendieckQDoublebar 1 nu mu none = some f ∧
        w.get nu = polynomial (fun _ => y) 1 f := by
  obtain ⟨w, h1, h2, h3, h4⟩ := applyA_gq n hm (fun _ => y) 1
  change applyA (PolyVal.mk Poly.beta) n (some (single mu 1)) (PolyVal.mk y) >>= (fun r => some r) = some (some w) at h1
  rw [Option.bind_eq_bind, Option.bind_fun_some, applyA] at h1
  obtain ⟨s, s1, s2⟩ := Option.bind_eq_some_iff.1 h1
  exact ⟨s, w, s1, s2, fun nu hnu => ⟨h2 nu hnu, (Vec.mem_keys_iff h3 nu).1 hnu⟩, h4⟩

/-- C98: for `m` variables `x_1, ..., x_m` the operators are applied one variable after the other, and the coefficient of
`nu` is `stable_grothendieck_q_doublebar(m, nu, mu)` at `x_1, ..., x_m`. -/
theorem C98_many (n : Nat) {mu : List Nat} (hm : IsStrict mu) (x : Int → Poly) (m : Nat) :
    ∃ w, ((List.range m).map (fun i : Nat => PolyVal.mk (x ((i : Int) + 1)))).foldlM
        (fun r y => (operatorAR (PolyVal.mk Poly.beta) n y (.res r)).bind
          (fun s => operatorAL (PolyVal.mk Poly.beta) n y (.res s))) (some (single mu 1)) = some (some w) ∧
      (∀ nu ∈ w.dict.keys, IsStrict nu ∧ w.get nu ≠ 0) ∧
      ∀ nu, IsStrict nu → nu.headD 0 ≤ n + 1 → ∃ f, stableGrothendieckQDoublebar m nu mu none = some f ∧
        w.get nu = polynomial x m f := by
  obtain ⟨w, h1, h2, h3, h4⟩ := applyA_gq n hm x m
  exact ⟨w, h1, fun nu hnu => ⟨h2 nu hnu, (Vec.mem_keys_iff h3 nu).1 hnu⟩, h4⟩

example : IsStrict [2, 1] ∧ IsStrict [3, 1] ∧ [3, 1].headD 0 ≤ 2 + 1 ∧
    ((operatorAR (5 : ℤ) 2 7 (.tup [2, 1])).bind (fun s => operatorAL (5 : ℤ) 2 7 (.res s))).map
      (fun r => [coef r [2, 1], coef r [3, 1], coef r [3, 2]]) = some [1296, 335664, 65268] := by
  refine ⟨by simp [IsStrict], by simp [IsStrict], by decide, by decide +kernel⟩

section

variable {R : Type*} [CommRing R] [DecidableEq R] [Nontrivial R]

/-! ## C99: removing boxes -/

open scoped Classical in
theorem row_op (beta : R) (index : Int) : KeySum (operatorShiftedRowRemove beta index)
    (fun mu nu => ∑ a ∈ Finset.range (index.natAbs + 1),
      if HStrip a index.natAbs nu mu then (-beta) ^ (index.natAbs - a) else 0) :=
  keys_sum (step := rowRemoveStep beta index) (fun ans _ hp => rowRemoveStep_spec beta index ans hp) rfl

open scoped Classical in
theorem column_op (beta : R) (index : Int) : KeySum (operatorShiftedColumnRemove beta index)
    (fun mu nu => ∑ s ∈ Finset.range (mu.sum + 1),
      if VStrip index.natAbs (index.natAbs + s) nu mu then (-beta) ^ s else 0) :=
  keys_sum (step := columnRemoveStep beta index) (fun ans _ hp => columnRemoveStep_spec beta index ans hp) rfl

/-- C99: `operator_shifted_row_remove(index)` raises no exception on a strict partition `mu`.  If the shifted diagram of `mu`
is that of `nu` and new boxes in one row on the diagonals `a, ..., |index|`, then the coefficient of the strict partition `nu`
is `(-beta)^(|index| - a)`.  All other coefficients are 0. -/
theorem C99_row_remove (beta : R) (index : Int) {mu : List Nat} (hm : IsStrict mu) :
    ∃ r, operatorShiftedRowRemove beta index (.tup mu) = some r ∧
      (∀ nu a, IsStrict nu → a ≤ index.natAbs → AddsRow a index.natAbs nu mu →
        coef r nu = (-beta) ^ (index.natAbs - a)) ∧
      ∀ nu, (∀ a, a ≤ index.natAbs → ¬ (IsStrict nu ∧ AddsRow a index.natAbs nu mu)) → coef r nu = 0 := by
  classical
  obtain ⟨r, h1, h2⟩ := (row_op beta index).2 mu hm
  dsimp only at h2
  refine ⟨r, h1, fun nu a hn ha h => ?_, fun nu hno => ?_⟩
  · rw [h2, Finset.sum_eq_single a]
    · rw [if_pos ((hStrip_iff ha hn hm).2 h)]
    · intro b hb hne
      rw [Finset.mem_range] at hb
      exact if_neg (fun hs => hne (hStrip_unique (by omega) ha hs ((hStrip_iff ha hn hm).2 h)))
    · intro hc
      exact absurd (Finset.mem_range.2 (by omega)) hc
  · rw [h2, Finset.sum_eq_zero]
    intro a ha
    rw [Finset.mem_range] at ha
    exact if_neg (fun hs => hno a (by omega) ⟨hs.1, (hStrip_iff (by omega) hs.1 hm).1 hs⟩)

/-- C99: `operator_shifted_column_remove(index)` raises no exception on a strict partition `mu`, and its loop ends.  If the
shifted diagram of `mu` is that of `nu` and new boxes in one column on the diagonals `|index|, ..., b`, then the coefficient
of the strict partition `nu` is `(-beta)^(b - |index|)`.  All other coefficients are 0. -/
theorem C99_column_remove (beta : R) (index : Int) {mu : List Nat} (hm : IsStrict mu) :
    ∃ r, operatorShiftedColumnRemove beta index (.tup mu) = some r ∧
      (∀ nu b, IsStrict nu → index.natAbs ≤ b → AddsColumn index.natAbs b nu mu →
        coef r nu = (-beta) ^ (b - index.natAbs)) ∧
      ∀ nu, (∀ b, index.natAbs ≤ b → ¬ (IsStrict nu ∧ AddsColumn index.natAbs b nu mu)) → coef r nu = 0 := by
  classical
  obtain ⟨r, h1, h2⟩ := (column_op beta index).2 mu hm
  dsimp only at h2
  refine ⟨r, h1, fun nu b hn hb h => ?_, fun nu hno => ?_⟩
  · obtain ⟨s, rfl⟩ := Nat.exists_eq_add_of_le hb
    have hs := (vStrip_iff hb hn hm).2 h
    rw [h2, Finset.sum_eq_single s]
    · rw [if_pos hs, Nat.add_sub_cancel_left]
    · intro t _ hne
      exact if_neg (fun ht => hne (by have := vStrip_unique (by omega) hb ht hs; omega))
    · intro hc
      exact absurd (Finset.mem_range.2 (by have := vStrip_bound hs; omega)) hc
  · rw [h2, Finset.sum_eq_zero]
    intro s _
    exact if_neg (fun hs => hno _ (by omega) ⟨hs.1, (vStrip_iff (by omega) hs.1 hm).1 hs⟩)

/-! ## C100: these operators on vectors -/

/-- C100 (full statement, false): the operator is linear, that is, the coefficients in what it returns for a vector `v` are
the sums over the keys `mu` of `v[mu]` times the coefficients for `mu`. -/
def IsLinearOp (op : Arg R → Option (Res R)) : Prop :=
  ∀ v : Vec (List Nat) R, (∀ mu ∈ v.dict.keys, IsStrict mu) → ∃ (r : Res R) (g : List Nat → Res R),
    op (.res (some v)) = some r ∧ (∀ mu ∈ v.dict.keys, op (.tup mu) = some (g mu)) ∧
      ∀ nu, coef r nu = (v.dict.keys.map (fun mu => v.get mu * coef (g mu) nu)).sum

/-- C100: what is true instead for `operator_shifted_row_remove`: the coefficients of `v` are ignored.  The formula of
`IsLinearOp` holds without the factors `v[mu]`, so it holds for vectors with coefficients 1. -/
theorem C100_row_remove_partial (beta : R) (index : Int) {v : Vec (List Nat) R} (hv : ∀ mu ∈ v.dict.keys, IsStrict mu) :
    ∃ (r : Res R) (g : List Nat → Res R), operatorShiftedRowRemove beta index (.res (some v)) = some r ∧
      (∀ mu ∈ v.dict.keys, operatorShiftedRowRemove beta index (.tup mu) = some (g mu)) ∧
      ∀ nu, coef r nu = (v.dict.keys.map (fun mu => coef (g mu) nu)).sum := by
  classical
  obtain ⟨r, h1, h2⟩ := (row_op beta index).1 v hv
  refine ⟨r, fun mu => (operatorShiftedRowRemove beta index (.tup mu)).getD none, h1, fun mu hmu => ?_, fun nu => ?_⟩
  · obtain ⟨s, s1, _⟩ := (row_op beta index).2 mu (hv mu hmu)
    dsimp only
    rw [s1]
    rfl
  · rw [h2]
    refine congrArg List.sum (List.map_congr_left (fun mu hmu => ?_))
    obtain ⟨s, s1, s2⟩ := (row_op beta index).2 mu (hv mu hmu)
    dsimp only
    rw [s1, Option.getD_some, s2]

/-- C100: the same for `operator_shifted_column_remove`. -/
theorem C100_column_remove_partial (beta : R) (index : Int) {v : Vec (List Nat) R} (hv : ∀ mu ∈ v.dict.keys, IsStrict mu) :
    ∃ (r : Res R) (g : List Nat → Res R), operatorShiftedColumnRemove beta index (.res (some v)) = some r ∧
      (∀ mu ∈ v.dict.keys, operatorShiftedColumnRemove beta index (.tup mu) = some (g mu)) ∧
      ∀ nu, coef r nu = (v.dict.keys.map (fun mu => coef (g mu) nu)).sum := by
  classical
  obtain ⟨r, h1, h2⟩ := (column_op beta index).1 v hv
  refine ⟨r, fun mu => (operatorShiftedColumnRemove beta index (.tup mu)).getD none, h1, fun mu hmu => ?_, fun nu => ?_⟩
  · obtain ⟨s, s1, _⟩ := (column_op beta index).2 mu (hv mu hmu)
    dsimp only
    rw [s1]
    rfl
  · rw [h2]
    refine congrArg List.sum (List.map_congr_left (fun mu hmu => ?_))
    obtain ⟨s, s1, s2⟩ := (column_op beta index).2 mu (hv mu hmu)
    dsimp only
    rw [s1, Option.getD_some, s2]

end

-- tests/test_operators.py: `(4, 1)`, `(4, 3, 2)` and, for the hypotheses of C99, the strips
example : IsStrict [4, 1] ∧ IsStrict [4, 3, 2] ∧
    (operatorShiftedRowRemove (5 : ℤ) 3 (.tup [4, 1])).map (fun r => [coef r [3, 1], coef r [2, 1], coef r [1]]) =
      some [1, -5, 0] ∧
    (operatorShiftedColumnRemove (5 : ℤ) 1 (.tup [4, 3, 2])).map
      (fun r => [coef r [4, 3, 1], coef r [4, 2, 1], coef r [3, 2, 1], coef r [4, 3, 2]]) = some [1, -5, 25, 0] := by
  refine ⟨by simp [IsStrict], by simp [IsStrict], by decide +kernel, by decide +kernel⟩

example : IsStrict [2, 1] ∧ 2 ≤ (3 : Int).natAbs ∧ AddsRow 2 (3 : Int).natAbs [2, 1] [4, 1] := by
  refine ⟨by simp [IsStrict], by decide, (hStrip_iff (by decide) (by simp [IsStrict]) (by simp [IsStrict])).1
    ⟨by simp [IsStrict], ⟨by simp, fun t t1 t2 => ?_⟩, fun t => ?_⟩⟩
  · have : t ≤ 4 := t2
    have : t = 3 ∨ t = 4 := by omega
    rcases this with rfl | rfl <;> simp
  · change t ∈ [4, 1] ↔ t = 4 ∨ t ∈ [2, 1] ∧ t ≠ 2
    simp
    omega

/-- C100: the operators are not linear. -/
theorem C100_row_remove_not_linear : ¬ IsLinearOp (operatorShiftedRowRemove (5 : ℤ) 0) := by
  intro h
  obtain ⟨r, g, h1, h2, h3⟩ := h (single [1] 2) (strictKeys_single (by simp [IsStrict]) _)
  have e1 : operatorShiftedRowRemove (5 : ℤ) 0 (.res (some (single [1] 2))) = some (some (single [] 1)) := rfl
  have e2 : operatorShiftedRowRemove (5 : ℤ) 0 (.tup [1]) = some (some (single [] 1)) := rfl
  have e3 : (single [1] (2 : ℤ)).dict.keys = [[1]] := by decide +kernel
  have h4 := h2 [1] (by rw [e3]; simp)
  rw [e2] at h4
  rw [e1] at h1
  have h5 := h3 []
  rw [e3, ← Option.some.inj h1, List.map_singleton, List.sum_singleton, ← Option.some.inj h4] at h5
  exact absurd h5 (by decide +kernel)

theorem C100_column_remove_not_linear : ¬ IsLinearOp (operatorShiftedColumnRemove (5 : ℤ) 0) := by
  intro h
  obtain ⟨r, g, h1, h2, h3⟩ := h (single [1] 2) (strictKeys_single (by simp [IsStrict]) _)
  have e1 : operatorShiftedColumnRemove (5 : ℤ) 0 (.res (some (single [1] 2))) = some (some (single [] 1)) :=
    rfl
  have e2 : operatorShiftedColumnRemove (5 : ℤ) 0 (.tup [1]) = some (some (single [] 1)) := rfl
  have e3 : (single [1] (2 : ℤ)).dict.keys = [[1]] := by decide +kernel
  have h4 := h2 [1] (by rw [e3]; simp)
  rw [e2] at h4
  rw [e1] at h1
  have h5 := h3 []
  rw [e3, ← Option.some.inj h1, List.map_singleton, List.sum_singleton, ← Option.some.inj h4] at h5
  exact absurd h5 (by decide +kernel)

/-- C100: a consequence for `operator_R`.  For `(2, 1)` the operators with the indices 0 and 1 remove the boxes of `(2, 1)`
outside `(1)` one after the other, each with the factor `var`; the coefficient of `(1)` is nevertheless `var`, not `var^2`. -/
theorem C100_operator_R : (operatorShiftedRowRemove (5 : ℤ) 0 (.tup [2, 1])).map (fun r => (coef r [2], coef r [1])) = some (1, 0) ∧
    (operatorShiftedRowRemove (5 : ℤ) 1 (.tup [2])).map (fun r => coef r [1]) = some 1 ∧
    (operatorShiftedRowRemove (5 : ℤ) 1 (.tup [2, 1])).map (fun r => coef r [1]) = some 0 ∧
    ((operatorR (5 : ℤ) 1 7 (.tup [2, 1])).map (fun r => coef r [1])) = some 7 := by
  refine ⟨by decide +kernel, by decide +kernel, by decide +kernel, by decide +kernel⟩

end Verif.Operators
