import Verif.Lemmas.LayerGen
import Verif.Lemmas.Fomin
import Mathlib.Algebra.Module.LinearMap.End
import Mathlib.Algebra.Module.Pi
import Mathlib.Algebra.Algebra.Pi
import Mathlib.Algebra.Algebra.Bilinear
import Mathlib.Tactic.Ring

/-!
The operators that remove the box on a given diagonal, acting on functions of shapes, and the relations between them.
-/

attribute [-simp] List.getD_eq_getElem?_getD

namespace Verif.Tableaux

open Verif.Part Fomin

/-- The diagonal of a box. -/
def cont (b : Nat × Nat) : Int := (b.2 : Int) - b.1

/-- `b` may be removed from the shape `mu`, and is not in `lam`. -/
structure Removable (sh : Bool) (lam mu : List Nat) (b : Nat × Nat) : Prop where
  shape : IsShape sh mu
  mem : b ∈ shapeSet sh mu
  right : (b.1, b.2 + 1) ∉ shapeSet sh mu
  below : (b.1 + 1, b.2) ∉ shapeSet sh mu
  out : b ∉ shapeSet sh lam

/-- `nu` is `mu` without the box `b`. -/
structure Without (sh : Bool) (mu : List Nat) (b : Nat × Nat) (nu : List Nat) : Prop where
  shape : IsShape sh nu
  set : ∀ c, c ∈ shapeSet sh nu ↔ c ∈ shapeSet sh mu ∧ c ≠ b

variable {sh : Bool} {lam mu nu : List Nat}

theorem Removable.exists_without {b : Nat × Nat} (h : Removable sh lam mu b) : ∃ nu, Without sh mu b nu := by
  obtain ⟨i, j⟩ := b
  obtain ⟨nu, h1, h2⟩ := exists_shape h.shape {c | c ∈ shapeSet sh mu ∧ c ≠ (i, j)} (fun c hc => hc.1) (by
      rintro a b hab ⟨h1, h2⟩
      refine ⟨hab, ?_⟩
      intro he
      obtain ⟨rfl, rfl⟩ := Prod.mk_inj.1 he
      exact h.right h1) (by
      rintro a b hab ⟨h1, h2⟩
      refine ⟨hab, ?_⟩
      intro he
      obtain ⟨rfl, rfl⟩ := Prod.mk_inj.1 he
      exact h.below h1)
  exact ⟨nu, h1, fun c => by rw [h2]; rfl⟩

theorem Without.unique {b : Nat × Nat} {nu'} (h : Without sh mu b nu) (h' : Without sh mu b nu') : nu = nu' :=
  shapeSet_inj h.shape h'.shape (Set.ext fun c => (h.set c).trans (h'.set c).symm)

/-- Going left in a row. -/
theorem shape_left' {i j j' : Nat} (h : (i, j) ∈ shapeSet sh mu) (hj : j' ≤ j) (ho : off sh i < j') :
    (i, j') ∈ shapeSet sh mu := by
  rw [mem_shapeSet] at *
  omega

/-- Going up in a column. -/
theorem shape_up' (hm : IsShape sh mu) {i i' j : Nat} (h : (i, j) ∈ shapeSet sh mu) (hi : i' ≤ i) (h1 : 1 ≤ i') :
    (i', j) ∈ shapeSet sh mu := by
  obtain ⟨d, rfl⟩ : ∃ d, i = i' + d := ⟨i - i', by omega⟩
  induction d with
  | zero => exact h
  | succ d ih =>
    apply ih _ (by omega)
    have h' := mem_shapeSet.1 h
    obtain ⟨k, hk⟩ : ∃ k, i' + d = k + 1 := ⟨i' + d - 1, by omega⟩
    rw [← add_assoc, hk] at h'
    rw [hk, mem_shapeSet]
    simp only [Nat.add_sub_cancel, off] at *
    have := hm.next k
    cases sh
    · simp at *
      omega
    · simp at *
      omega

/-- Going up and left. -/
theorem shape_up_left (hm : IsShape sh mu) {i j i' j' : Nat} (h : (i, j) ∈ shapeSet sh mu) (hi : i' ≤ i) (hj : j' ≤ j)
    (h1 : 1 ≤ i') (ho : off sh i' < j') : (i', j') ∈ shapeSet sh mu :=
  shape_left' (shape_up' hm h hi h1) hj ho

theorem off_mono {i j : Nat} (h : i ≤ j) : off sh i ≤ off sh j := by
  unfold off
  split <;> omega

/-- On a diagonal, all boxes but the last have a box to the right. -/
theorem diag_right (hm : IsShape sh mu) {b c : Nat × Nat} (hb : b ∈ shapeSet sh mu) (hc : c ∈ shapeSet sh mu)
    (h : cont b = cont c) (hlt : c.1 < b.1) : (c.1, c.2 + 1) ∈ shapeSet sh mu := by
  obtain ⟨i, j⟩ := b
  obtain ⟨i', j'⟩ := c
  have hc' := mem_shapeSet.1 hc
  simp only [cont] at *
  exact shape_up_left hm hb (by omega) (by omega) hc'.1 (by omega)

/-- On a diagonal, all boxes but the last have a box below, unless that would be left of the main diagonal of a shifted
shape. -/
theorem diag_below (hm : IsShape sh mu) {b c : Nat × Nat} (hb : b ∈ shapeSet sh mu) (hc : c ∈ shapeSet sh mu)
    (h : cont b = cont c) (hlt : c.1 < b.1) (h0 : sh = false ∨ 0 < cont b) : (c.1 + 1, c.2) ∈ shapeSet sh mu := by
  obtain ⟨i, j⟩ := b
  obtain ⟨i', j'⟩ := c
  have hc' := mem_shapeSet.1 hc
  simp only [cont] at *
  refine shape_up_left hm hb (by omega) (by omega) (by omega) ?_
  unfold off at *
  rcases h0 with rfl | h0
  · simp at *; omega
  · cases sh
    · simp at *; omega
    · simp at *; omega

/-- At most one box on each diagonal may be removed. -/
theorem Removable.unique {lam' : List Nat} {b c : Nat × Nat} (h : Removable sh lam mu b)
    (h' : Removable sh lam' mu c) (hd : cont b = cont c) : b = c := by
  have key : ∀ {lam lam' : List Nat} {b c : Nat × Nat}, Removable sh lam mu b → Removable sh lam' mu c →
      cont b = cont c → ¬ c.1 < b.1 :=
    fun h h' hd hlt => h'.right (diag_right h.shape h.mem h'.mem hd hlt)
  have h1 := key h h' hd
  have h2 := key h' h hd.symm
  have h3 := (mem_shapeSet.1 (show (b.1, b.2) ∈ shapeSet sh mu from h.mem))
  refine Prod.ext (by omega) ?_
  simp only [cont] at hd
  omega

/-- No two boxes on neighbouring diagonals may be removed. -/
theorem Removable.not_adjacent {lam' : List Nat} {b c : Nat × Nat} (h : Removable sh lam mu b)
    (h' : Removable sh lam' mu c) : cont c ≠ cont b + 1 := by
  obtain ⟨i, j⟩ := b
  obtain ⟨i', j'⟩ := c
  intro hd
  have hc := mem_shapeSet.1 h'.mem
  have hb := mem_shapeSet.1 h.mem
  simp only [cont] at *
  by_cases h1 : i ≤ i'
  · refine h.right (shape_up_left h.shape h'.mem h1 (by simp only; omega) hb.1 (by simp only; omega))
  · by_cases h2 : i' + 1 = i
    · apply h'.below
      have : j' = j := by omega
      subst this
      rw [h2]
      exact h.mem
    · apply h'.right
      exact shape_up_left h.shape h.mem (by simp only; omega) (by simp only; omega) hc.1 (by simp only; omega)

theorem Without.removable {b c : Nat × Nat} (hw : Without sh mu b nu) (h : Removable sh lam mu c)
    (h1 : c ≠ b) : Removable sh lam nu c := by
  refine ⟨hw.shape, (hw.set c).2 ⟨h.mem, h1⟩, fun hc => h.right ((hw.set _).1 hc).1,
    fun hc => h.below ((hw.set _).1 hc).1, h.out⟩

/-- A box that is not next to the removed one could be removed before. -/
theorem Without.removable_far {b c : Nat × Nat} (hm : IsShape sh mu) (hw : Without sh mu b nu)
    (h : Removable sh lam nu c) (h1 : cont b ≠ cont c + 1) (h2 : cont b ≠ cont c - 1) : Removable sh lam mu c := by
  refine ⟨hm, ((hw.set c).1 h.mem).1, fun hc => ?_, fun hc => ?_, h.out⟩
  · refine h.right ((hw.set _).2 ⟨hc, ?_⟩)
    rintro rfl
    simp only [cont] at h1
    omega
  · refine h.below ((hw.set _).2 ⟨hc, ?_⟩)
    rintro rfl
    simp only [cont] at h2
    omega

/-- After the removal of a box, no other box on its diagonal may be removed, at first. -/
theorem Without.not_removable {b c : Nat × Nat} (hb : Removable sh lam mu b) (hw : Without sh mu b nu)
    (hd : cont c = cont b) : ¬ Removable sh lam nu c := by
  intro h
  have h1 := hw.removable_far hb.shape h (by omega) (by omega)
  have := h1.unique hb hd
  exact ((hw.set c).1 h.mem).2 this

variable {K : Type*} [CommRing K]

open scoped Classical in
/-- Removing the box on the diagonal `c`, or staying, with the factor `β`. -/
noncomputable def boxOp (sh : Bool) (lam : List Nat) (β : K) (c : Int) : Module.End K (List Nat → K) where
  toFun f mu := if h : ∃ b nu, Removable sh lam mu b ∧ cont b = c ∧ Without sh mu b nu then
    f h.choose_spec.choose + β * f mu else 0
  map_add' f g := by
    funext mu
    simp only [Pi.add_apply]
    split
    · ring
    · ring
  map_smul' a f := by
    funext mu
    simp only [Pi.smul_apply, smul_eq_mul, RingHom.id_apply]
    split
    · ring
    · ring

variable {β : K}

open scoped Classical in
theorem boxOp_pos {b : Nat × Nat} (h : Removable sh lam mu b) (hw : Without sh mu b nu) (f : List Nat → K) :
    boxOp sh lam β (cont b) f mu = f nu + β * f mu := by
  have hex : ∃ b' nu', Removable sh lam mu b' ∧ cont b' = cont b ∧ Without sh mu b' nu' := ⟨b, nu, h, rfl, hw⟩
  show (if h : ∃ b' nu', Removable sh lam mu b' ∧ cont b' = cont b ∧ Without sh mu b' nu' then
    f h.choose_spec.choose + β * f mu else 0) = _
  rw [dif_pos hex]
  have h1 := hex.choose_spec.choose_spec
  have h2 := h1.1.unique h h1.2.1
  have key : ∀ nu', Without sh mu hex.choose nu' → nu' = nu := by
    rw [h2]
    exact fun nu' h => h.unique hw
  rw [key _ h1.2.2]

open scoped Classical in
theorem boxOp_neg {c : Int} (h : ∀ b, cont b = c → ¬ Removable sh lam mu b) (f : List Nat → K) :
    boxOp sh lam β c f mu = 0 := by
  show (if h : ∃ b' nu', Removable sh lam mu b' ∧ cont b' = c ∧ Without sh mu b' nu' then
    f h.choose_spec.choose + β * f mu else 0) = _
  rw [dif_neg]
  rintro ⟨b, _, h1, h2, _⟩
  exact h b h2 h1

theorem boxOp_cases (sh : Bool) (lam mu : List Nat) (c : Int) :
    (∃ b nu, Removable sh lam mu b ∧ cont b = c ∧ Without sh mu b nu) ∨
      ∀ b, cont b = c → ¬ Removable sh lam mu b := by
  by_cases h : ∃ b, Removable sh lam mu b ∧ cont b = c
  · obtain ⟨b, h1, h2⟩ := h
    obtain ⟨nu, h3⟩ := h1.exists_without
    exact Or.inl ⟨b, nu, h1, h2, h3⟩
  · right
    intro b h1 h2
    exact h ⟨b, h2, h1⟩

theorem boxOp_sq (c : Int) : boxOp sh lam β c * boxOp sh lam β c = β • boxOp sh lam β c := by
  ext f mu
  rw [Module.End.mul_apply, LinearMap.smul_apply, Pi.smul_apply, smul_eq_mul]
  rcases boxOp_cases sh lam mu c with ⟨b, nu, h1, rfl, h2⟩ | h
  · rw [boxOp_pos h1 h2, boxOp_neg (fun d hd => h2.not_removable h1 hd), zero_add]
  · rw [boxOp_neg h, boxOp_neg h, mul_zero]

/-- The order in which two boxes are removed does not matter. -/
theorem Without.swap {b c : Nat × Nat} {nu1 nu2 rho : List Nat} (h1 : Without sh mu b nu1) (h2 : Without sh mu c nu2)
    (h3 : Without sh nu1 c rho) : Without sh nu2 b rho := by
  refine ⟨h3.shape, fun d => ?_⟩
  rw [h3.set, h1.set, h2.set]
  tauto

theorem boxOp_far {c d : Int} (h : c + 2 ≤ d) :
    boxOp sh lam β c * boxOp sh lam β d = boxOp sh lam β d * boxOp sh lam β c := by
  ext f mu
  rw [Module.End.mul_apply, Module.End.mul_apply]
  rcases boxOp_cases sh lam mu c with ⟨b, nu, h1, rfl, h2⟩ | h1
  · rcases boxOp_cases sh lam mu d with ⟨e, nu', h3, rfl, h4⟩ | h3
    · have hbe : e ≠ b := by rintro rfl; omega
      obtain ⟨rho, h5⟩ := (h2.removable h3 hbe).exists_without
      have h6 := h2.swap h4 h5
      rw [boxOp_pos h1 h2, boxOp_pos h3 h4, boxOp_pos h3 h4, boxOp_pos h1 h2,
        boxOp_pos (h2.removable h3 hbe) h5, boxOp_pos (h4.removable h1 hbe.symm) h6]
      ring
    · rw [boxOp_pos h1 h2, boxOp_neg h3, boxOp_neg h3, boxOp_neg, mul_zero, add_zero]
      intro e he hr
      exact h3 e he (h2.removable_far h1.shape hr (by omega) (by omega))
  · rw [boxOp_neg h1]
    rcases boxOp_cases sh lam mu d with ⟨e, nu', h3, rfl, h4⟩ | h3
    · rw [boxOp_pos h3 h4, boxOp_neg h1, boxOp_neg, mul_zero, add_zero]
      intro b hb hr
      exact h1 b hb (h4.removable_far h3.shape hr (by omega) (by omega))
    · rw [boxOp_neg h3]

/-- `u c * u d * u c = 0` for neighbouring diagonals, if no chain of three boxes may be removed. -/
theorem boxOp_chain {c d : Int} (hcd : d = c + 1 ∨ c = d + 1)
    (hno : ∀ mu nu rho b e a, Removable sh lam mu b → Without sh mu b nu → cont b = c → Removable sh lam nu e →
      Without sh nu e rho → cont e = d → cont a = c → ¬ Removable sh lam rho a) :
    boxOp sh lam β c * boxOp sh lam β d * boxOp sh lam β c = 0 := by
  ext f mu
  rw [Module.End.mul_apply, Module.End.mul_apply, LinearMap.zero_apply, Pi.zero_apply]
  rcases boxOp_cases sh lam mu c with ⟨b, nu, h1, rfl, h2⟩ | h1
  · rw [boxOp_pos h1 h2]
    have hmu : ∀ e, cont e = d → ¬ Removable sh lam mu e := by
      intro e he hr
      rcases hcd with hcd | hcd
      · exact h1.not_adjacent hr (by omega)
      · exact hr.not_adjacent h1 (by omega)
    rw [boxOp_neg hmu, mul_zero, add_zero]
    rcases boxOp_cases sh lam nu d with ⟨e, rho, h3, h3', h4⟩ | h3
    · subst h3'
      rw [boxOp_pos h3 h4, boxOp_neg (fun a ha => hno mu nu rho b e a h1 h2 rfl h3 h4 rfl ha),
        boxOp_neg (fun a ha => h2.not_removable h1 ha), mul_zero, add_zero]
    · rw [boxOp_neg h3]
  · rw [boxOp_neg h1]

theorem chain_order (hm : IsShape sh mu) {b a : Nat × Nat} (hb : Removable sh lam mu b) (ha : a ∈ shapeSet sh mu)
    (hd : cont a = cont b) (hne : a ≠ b) : a.1 < b.1 := by
  by_contra hc
  have h1 : b.1 < a.1 := by
    rcases Nat.lt_or_ge b.1 a.1 with h | h
    · exact h
    · exfalso
      apply hne
      refine Prod.ext (by omega) ?_
      simp only [cont] at hd
      omega
  exact hb.right (diag_right hm ha hb.mem hd h1)

theorem boxOp_up (c : Int) : boxOp sh lam β (c + 1) * boxOp sh lam β c * boxOp sh lam β (c + 1) = 0 := by
  refine boxOp_chain (Or.inr rfl) ?_
  intro mu nu rho b e a h1 h2 h3 h4 h5 h6 h7 h8
  have ha1 := (h5.set a).1 h8.mem
  have ha2 := (h2.set a).1 ha1.1
  have hlt := chain_order h1.shape h1 ha2.1 (by omega) ha2.2
  refine h8.right ((h5.set _).2 ⟨(h2.set _).2 ⟨diag_right h1.shape h1.mem ha2.1 (by omega) hlt, ?_⟩, ?_⟩)
  · rintro rfl
    simp only [cont] at h3 h7
    push_cast at h3
    omega
  · rintro rfl
    simp only [cont] at h6 h7
    push_cast at h6
    omega

theorem boxOp_down (c : Int) (hc : sh = false ∨ 0 < c) :
    boxOp sh lam β c * boxOp sh lam β (c + 1) * boxOp sh lam β c = 0 := by
  refine boxOp_chain (Or.inl rfl) ?_
  intro mu nu rho b e a h1 h2 h3 h4 h5 h6 h7 h8
  have ha1 := (h5.set a).1 h8.mem
  have ha2 := (h2.set a).1 ha1.1
  have hlt := chain_order h1.shape h1 ha2.1 (by omega) ha2.2
  refine h8.below ((h5.set _).2 ⟨(h2.set _).2 ⟨diag_below h1.shape h1.mem ha2.1 (by omega) hlt (by rw [h3]; exact hc), ?_⟩, ?_⟩)
  · rintro rfl
    simp only [cont] at h3 h7
    push_cast at h3
    omega
  · rintro rfl
    simp only [cont] at h6 h7
    push_cast at h6
    omega

/-- The operators for the diagonals from `lo` on satisfy the relations, from the index `s` on. -/
theorem boxOp_rel (sh : Bool) (lam : List Nat) (β : K) (lo : Int) (s : Nat) (h : sh = false ∨ 0 < lo + s) :
    Rel β (fun i : Nat => boxOp sh lam β (lo + i)) s := by
  refine ⟨fun i => boxOp_sq _, fun i j hij => boxOp_far (by omega), fun i hi => ?_⟩
  have e : lo + ((i + 1 : Nat) : Int) = (lo + i) + 1 := by push_cast; ring
  simp only [e]
  rw [boxOp_up, boxOp_down _ (by rcases h with h | h; exact Or.inl h; exact Or.inr (by omega))]

end Verif.Tableaux
