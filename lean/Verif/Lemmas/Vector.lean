import Verif.Model.Vector
import Verif.Spec.FreeModule
import Verif.Lemmas.Dict
import Mathlib.Algebra.BigOperators.Group.List.Basic
import Mathlib.Tactic.Ring

/-! Helper lemmas about the vector model. -/

set_option linter.unusedSectionVars false

namespace Verif

open Dict

namespace FreeMod

variable {K R : Type*} [CommRing R] (s : K → K → (K →₀ R))

@[simp] theorem bil_zero_left (v : K →₀ R) : bil s 0 v = 0 := by simp [bil]
@[simp] theorem bil_zero_right (u : K →₀ R) : bil s u 0 = 0 := by simp [bil]

theorem bil_add_left (u u' v : K →₀ R) : bil s (u + u') v = bil s u v + bil s u' v := by
  unfold bil
  rw [Finsupp.sum_add_index' (by simp)]
  intro a x y
  rw [← Finsupp.sum_add]
  simp only [add_mul, add_smul]

theorem bil_add_right (u v v' : K →₀ R) : bil s u (v + v') = bil s u v + bil s u v' := by
  unfold bil
  rw [← Finsupp.sum_add]
  congr 1
  funext a x
  rw [Finsupp.sum_add_index' (by simp)]
  intro b y z
  simp only [mul_add, add_smul]

theorem bil_single (a b : K) (x y : R) :
    bil s (Finsupp.single a x) (Finsupp.single b y) = (x * y) • s a b := by
  unfold bil
  rw [Finsupp.sum_single_index (by simp), Finsupp.sum_single_index (by simp)]

theorem bil_smul_left (c : R) (u v : K →₀ R) : bil s (c • u) v = c • bil s u v := by
  induction u using Finsupp.induction_linear with
  | zero => simp
  | add f g hf hg => rw [smul_add, bil_add_left, bil_add_left, hf, hg, smul_add]
  | single a x =>
    induction v using Finsupp.induction_linear with
    | zero => simp
    | add f g hf hg => rw [bil_add_right, bil_add_right, hf, hg, smul_add]
    | single b y => rw [Finsupp.smul_single, bil_single, bil_single, smul_smul, smul_eq_mul, mul_assoc]

theorem bil_smul_right (c : R) (u v : K →₀ R) : bil s u (c • v) = c • bil s u v := by
  induction u using Finsupp.induction_linear with
  | zero => simp
  | add f g hf hg => rw [bil_add_left, bil_add_left, hf, hg, smul_add]
  | single a x =>
    induction v using Finsupp.induction_linear with
    | zero => simp
    | add f g hf hg => rw [smul_add, bil_add_right, bil_add_right, hf, hg, smul_add]
    | single b y =>
      rw [Finsupp.smul_single, bil_single, bil_single, smul_smul, smul_eq_mul]
      congr 1; ring

variable {s}

theorem Assoc.all (h : Assoc s) (u v w : K →₀ R) : bil s (bil s u v) w = bil s u (bil s v w) := by
  have hs : ∀ (a : K) (x : R), (Finsupp.single a x : K →₀ R) = x • Finsupp.single a 1 := by
    intro a x; rw [Finsupp.smul_single, smul_eq_mul, mul_one]
  induction u using Finsupp.induction_linear with
  | zero => simp
  | add f g hf hg => rw [bil_add_left, bil_add_left, bil_add_left, hf, hg]
  | single a x =>
    induction v using Finsupp.induction_linear with
    | zero => simp
    | add f g hf hg => rw [bil_add_left, bil_add_right, bil_add_right, bil_add_left, hf, hg]
    | single b y =>
      induction w using Finsupp.induction_linear with
      | zero => simp
      | add f g hf hg => rw [bil_add_right, bil_add_right, bil_add_right, hf, hg]
      | single c z =>
        rw [hs a x, hs b y, hs c z]
        simp only [bil_smul_left, bil_smul_right]
        rw [h]

theorem Assoc.pow_add (h : Assoc s) (v : K →₀ R) (m n : ℕ) :
    bil s (pow s v m) (pow s v n) = pow s v (m + n + 1) := by
  induction n with
  | zero => rfl
  | succ n ih =>
    have : m + (n + 1) + 1 = (m + n + 1) + 1 := by ring
    rw [this, pow, pow, ← ih, h.all]

end FreeMod

namespace Vec

variable {K R : Type*} [DecidableEq K] [CommRing R] [DecidableEq R]

/-- No zero coefficient is stored (holds for everything the constructor returns). -/
def NoZero (u : Vec K R) : Prop := ∀ k c, u.dict.get? k = some c → c ≠ 0

theorem noZero_mk' (d : Dict K R) (mult) : NoZero (mk' d mult) := by
  intro k c
  rw [mk', get?_filter]
  cases d.get? k with
  | none => simp
  | some v =>
    by_cases h : v = 0
    · simp [Option.filter, h]
    · simp only [Option.filter, h, ne_eq, not_false_eq_true, decide_true, if_true, Option.some.injEq]
      rintro rfl; exact h

theorem get_mk' (d : Dict K R) (mult) (k : K) : (mk' d mult).get k = d.getD k 0 := by
  unfold get mk' getD
  rw [get?_filter]
  cases d.get? k with
  | none => simp
  | some v => by_cases h : v = 0 <;> simp [Option.filter, h]

theorem getD_foldl_set (l : List K) (f : K → R) (d : Dict K R) (k : K) :
    (l.foldl (fun d k => d.set k (f k)) d).getD k 0 = if k ∈ l then f k else d.getD k 0 := by
  induction l generalizing d with
  | nil => simp
  | cons a l ih =>
    rw [List.foldl_cons, ih, getD_set]
    by_cases h1 : k ∈ l
    · simp [h1]
    · by_cases h2 : a = k
      · simp [h2]
      · simp [h1, h2, Ne.symm h2]

theorem get_fromKeys (l : List K) (f : K → R) (k : K) :
    (fromKeys l f).getD k 0 = if k ∈ l then f k else 0 := by
  rw [fromKeys, getD_foldl_set]; rfl

theorem get_of_notMem {u : Vec K R} {k : K} (h : k ∉ u.dict.keys) : u.get k = 0 := getD_of_notMem h

theorem len_eq_zero {u : Vec K R} : u.len = 0 ↔ u.dict.items = [] := List.length_eq_zero_iff

theorem get_of_len_zero {u : Vec K R} (h : u.len = 0) (k : K) : u.get k = 0 := by
  apply get_of_notMem
  rw [len_eq_zero] at h
  simp [keys, h]

theorem get_add (u v : Vec K R) (k : K) : (add u v).get k = u.get k + v.get k := by
  unfold add
  split
  · rename_i h; rw [get_of_len_zero h, add_zero]
  · rw [get_mk', get_fromKeys]
    split
    · rfl
    · rename_i h
      simp only [unionKeys, List.mem_dedup, List.mem_append, not_or] at h
      rw [get_of_notMem h.1, get_of_notMem h.2, add_zero]

theorem get_sub (u v : Vec K R) (k : K) : (sub u v).get k = u.get k - v.get k := by
  unfold sub
  split
  · rename_i h; rw [get_of_len_zero h, sub_zero]
  · rw [get_mk', get_fromKeys]
    split
    · rfl
    · rename_i h
      simp only [unionKeys, List.mem_dedup, List.mem_append, not_or] at h
      rw [get_of_notMem h.1, get_of_notMem h.2, sub_zero]

theorem get_smul (u : Vec K R) (c : R) (k : K) : (smul u c).get k = u.get k * c := by
  unfold smul
  rw [get_mk', get_fromKeys]
  split
  · rfl
  · rename_i h; rw [get_of_notMem h, zero_mul]

theorem noZero_add {u v : Vec K R} (hu : NoZero u) : NoZero (add u v) := by
  unfold add; split
  · exact hu
  · apply noZero_mk'

theorem noZero_sub {u v : Vec K R} (hu : NoZero u) : NoZero (sub u v) := by
  unfold sub; split
  · exact hu
  · apply noZero_mk'

theorem mem_keys_iff {u : Vec K R} (hu : NoZero u) (k : K) : k ∈ u.dict.keys ↔ u.get k ≠ 0 := by
  constructor
  · intro h
    obtain ⟨v, hv⟩ := Dict.mem_keys.1 h
    rw [get, getD_of_get? hv]; exact hu k v hv
  · intro h; by_contra hc; exact h (get_of_notMem hc)

theorem len_zero_iff {u : Vec K R} (hu : NoZero u) : u.len = 0 ↔ ∀ k, u.get k = 0 := by
  constructor
  · intro h k; exact get_of_len_zero h k
  · intro h
    rw [len_eq_zero]
    by_contra hc
    obtain ⟨p, hp⟩ := List.exists_mem_of_ne_nil _ hc
    exact (mem_keys_iff hu p.1).1 (mem_keys_of_items hp) (h p.1)

/-- The formal linear combination described by a vector. -/
noncomputable def den (u : Vec K R) : K →₀ R := FreeMod.ofTerms u.dict.items

theorem ofTerms_apply (l : List (K × R)) (k : K) :
    FreeMod.ofTerms l k = ((l.filter (fun t => decide (t.1 = k))).map Prod.snd).sum := by
  induction l with
  | nil => simp [FreeMod.ofTerms]
  | cons a l ih =>
    unfold FreeMod.ofTerms at *
    rw [List.map_cons, List.sum_cons, Finsupp.add_apply, ih, List.filter_cons, Finsupp.single_apply]
    by_cases h : a.1 = k <;> simp [h]

theorem ofTerms_nodup (l : List (K × R)) (hn : (l.map Prod.fst).Nodup) (k : K) :
    FreeMod.ofTerms l k = (lookup k l).getD 0 := by
  induction l with
  | nil => simp [FreeMod.ofTerms, lookup]
  | cons a l ih =>
    simp only [List.map_cons, List.nodup_cons] at hn
    have ih := ih hn.2
    unfold FreeMod.ofTerms at *
    simp only [List.map_cons, List.sum_cons, Finsupp.add_apply, ih]
    by_cases h : a.1 = k
    · subst h
      have : lookup a.1 l = none := lookup_eq_none.2 hn.1
      simp [lookup, this]
    · simp [lookup, h]

theorem den_apply (u : Vec K R) (k : K) : u.den k = u.get k := ofTerms_nodup _ u.dict.nodup k

theorem bil_ofTerms (s : K → K → (K →₀ R)) (l l' : List (K × R)) :
    FreeMod.bil s (FreeMod.ofTerms l) (FreeMod.ofTerms l') =
      (l.map (fun ax => (l'.map (fun bx => (ax.2 * bx.2) • s ax.1 bx.1)).sum)).sum := by
  induction l with
  | nil => simp [FreeMod.ofTerms]
  | cons a l ih =>
    have h1 : FreeMod.ofTerms (a :: l) = Finsupp.single a.1 a.2 + FreeMod.ofTerms l := by
      simp [FreeMod.ofTerms]
    rw [h1, FreeMod.bil_add_left, ih, List.map_cons, List.sum_cons]
    congr 1
    clear ih h1
    induction l' with
    | nil => simp [FreeMod.ofTerms]
    | cons b l' ih' =>
      have h2 : FreeMod.ofTerms (b :: l') = Finsupp.single b.1 b.2 + FreeMod.ofTerms l' := by
        simp [FreeMod.ofTerms]
      rw [h2, FreeMod.bil_add_right, FreeMod.bil_single, List.map_cons, List.sum_cons]
      congr 1

/-- The finitely supported function stored in a dict. -/
noncomputable def dden (d : Dict K R) : K →₀ R := FreeMod.ofTerms d.items

theorem dden_apply (d : Dict K R) (k : K) : dden d k = d.getD k 0 := ofTerms_nodup _ d.nodup k

theorem dden_accum (x y : R) (d : Dict K R) (mc : K × R) :
    dden (accum x y d mc) = dden d + (x * y) • Finsupp.single mc.1 mc.2 := by
  ext k
  rw [dden_apply, accum, getD_set, Finsupp.add_apply, Finsupp.smul_apply, Finsupp.single_apply, dden_apply]
  by_cases h : mc.1 = k
  · subst h; simp
  · simp [h]

theorem foldl_dden {α : Type*} (step : Dict K R → α → Dict K R) (g : α → (K →₀ R))
    (h : ∀ d a, dden (step d a) = dden d + g a) (l : List α) (d : Dict K R) :
    dden (l.foldl step d) = dden d + (l.map g).sum := by
  induction l generalizing d with
  | nil => simp
  | cons a l ih => rw [List.foldl_cons, ih, h, List.map_cons, List.sum_cons, add_assoc]

theorem den_mk' (d : Dict K R) (mult) : (mk' d mult).den = dden d := by
  ext k; rw [den_apply, get_mk', dden_apply]

theorem ofTerms_smul (c : R) (l : List (K × R)) :
    (l.map (fun mc => c • (Finsupp.single mc.1 mc.2 : K →₀ R))).sum = c • FreeMod.ofTerms l := by
  induction l with
  | nil => simp [FreeMod.ofTerms]
  | cons a l ih => rw [List.map_cons, List.sum_cons, ih]; simp [FreeMod.ofTerms]

theorem den_mul (keyMul : K → K → K) (u v : Vec K R) :
    (mul keyMul u v).den =
      FreeMod.bil (fun a b => FreeMod.ofTerms (terms keyMul u.multiplier a b)) u.den v.den := by
  rw [mul, den_mk', den, den, bil_ofTerms]
  rw [foldl_dden (g := fun ax => (v.dict.items.map (fun bx => (ax.2 * bx.2) •
    FreeMod.ofTerms (terms keyMul u.multiplier ax.1 bx.1))).sum)]
  · have : dden (Dict.empty : Dict K R) = 0 := by ext k; rw [dden_apply]; rfl
    rw [this, zero_add]
  · intro d ax
    rw [foldl_dden (g := fun bx => (ax.2 * bx.2) • FreeMod.ofTerms (terms keyMul u.multiplier ax.1 bx.1))]
    intro d bx
    rw [foldl_dden (g := fun mc => (ax.2 * bx.2) • Finsupp.single mc.1 mc.2) _ (dden_accum _ _), ofTerms_smul]

theorem mult_mul (keyMul : K → K → K) (u v : Vec K R) :
    (mul keyMul u v).multiplier = (u.multiplier <|> v.multiplier) := rfl

end Vec
end Verif
