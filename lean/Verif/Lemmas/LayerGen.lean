import Verif.Lemmas.Layer

/-! Tableaux built letter by letter (see `Verif.Lemmas.Layer`). -/

attribute [-simp] List.getD_eq_getElem?_getD

namespace Verif.Tableaux

open Tab Verif.Part

/-- The rules for a family of tableaux.  Letters are numbered `1, 2, ...` in increasing order; `val` gives the integers
that stand for them. -/
structure Rules where
  sh : Bool
  sv : Bool
  val : Nat → Int
  rowRep : Nat → Prop
  colRep : Nat → Prop
  diag : Nat → Prop

/-- `T` is a filling of `mu/lam` with the first `K` letters that obeys the rules. -/
structure IsTab (R : Rules) (lam : List Nat) (K : Nat) (mu : List Nat) (T : Tab) : Prop where
  canon : T.Canon
  sub : shapeSet R.sh lam ⊆ shapeSet R.sh mu
  dom : ∀ b, T.ent b ≠ [] ↔ b ∈ shapeSet R.sh mu ∧ b ∉ shapeSet R.sh lam
  range : ∀ b, ∀ x ∈ T.ent b, ∃ k, 1 ≤ k ∧ k ≤ K ∧ x = R.val k
  single : R.sv = false → ∀ b, ∀ x ∈ T.ent b, ∀ y ∈ T.ent b, x = y
  row : ∀ i j k l, R.val k ∈ T.ent (i, j) → R.val l ∈ T.ent (i, j + 1) → k ≤ l ∧ (k = l → R.rowRep k)
  col : ∀ i j k l, R.val k ∈ T.ent (i, j) → R.val l ∈ T.ent (i + 1, j) → k ≤ l ∧ (k = l → R.colRep k)
  diag : ∀ i k, R.val k ∈ T.ent (i, i) → R.diag k

/-- Letter `k` may be put into the boxes `S` on top of a tableau of shape `nu/lam` to get one of shape `mu/lam`. -/
structure IsMove (R : Rules) (lam : List Nat) (k : Nat) (mu nu : List Nat) (S : Nat × Nat → Prop) : Prop where
  shape : IsShape R.sh nu
  sub1 : shapeSet R.sh lam ⊆ shapeSet R.sh nu
  sub2 : shapeSet R.sh nu ⊆ shapeSet R.sh mu
  diff : ∀ b, b ∈ shapeSet R.sh mu → b ∉ shapeSet R.sh nu → S b
  inside : ∀ b, S b → b ∈ shapeSet R.sh mu ∧ b ∉ shapeSet R.sh lam
  corner : ∀ i j, S (i, j) → (i, j) ∈ shapeSet R.sh nu →
    R.sv = true ∧ (i, j + 1) ∉ shapeSet R.sh nu ∧ (i + 1, j) ∉ shapeSet R.sh nu
  row : ∀ i j, S (i, j) → (i, j + 1) ∈ shapeSet R.sh mu → (i, j + 1) ∉ shapeSet R.sh nu → R.rowRep k
  col : ∀ i j, S (i, j) → (i + 1, j) ∈ shapeSet R.sh mu → (i + 1, j) ∉ shapeSet R.sh nu → R.colRep k
  diag : ∀ i, S (i, i) → R.diag k

variable {R : Rules} {lam : List Nat}

/-- The move by which the last letter was added. -/
theorem isTab_unstep (hinj : Function.Injective R.val) (hlam : IsShape R.sh lam) {k : Nat} {mu : List Nat}
    (hm : IsShape R.sh mu) {T : Tab} (h : IsTab R lam (k + 1) mu T) :
    ∃ nu T', IsMove R lam (k + 1) mu nu (fun b => R.val (k + 1) ∈ T.ent b) ∧ IsTab R lam k nu T' ∧
      ∀ b x, x ∈ T.ent b ↔ x ∈ T'.ent b ∨ (R.val (k + 1) ∈ T.ent b ∧ x = R.val (k + 1)) := by
  obtain ⟨T', hc, hT'⟩ := exists_restrict T (fun x => ∃ l, 1 ≤ l ∧ l ≤ k ∧ x = R.val l)
  have hsplit : ∀ b x, x ∈ T.ent b ↔ x ∈ T'.ent b ∨ (R.val (k + 1) ∈ T.ent b ∧ x = R.val (k + 1)) := by
    intro b x
    rw [hT']
    constructor
    · intro hx
      obtain ⟨l, h1, h2, rfl⟩ := h.range b x hx
      by_cases hl : l ≤ k
      · exact Or.inl ⟨hx, l, h1, hl, rfl⟩
      · have : l = k + 1 := by omega
        subst this
        exact Or.inr ⟨hx, rfl⟩
    · rintro (h | ⟨h, rfl⟩)
      · exact h.1
      · exact h
  have hin : ∀ b x, x ∈ T.ent b → b ∈ shapeSet R.sh mu ∧ b ∉ shapeSet R.sh lam :=
    fun b x hx => (h.dom b).1 (List.ne_nil_of_mem hx)
  obtain ⟨nu, hn, hnS⟩ := exists_shape hm
    {b | b ∈ shapeSet R.sh mu ∧ (b ∈ shapeSet R.sh lam ∨ T'.ent b ≠ [])} (fun b hb => hb.1) (by
      rintro i j hij ⟨h1, h2⟩
      refine ⟨hij, ?_⟩
      by_cases hl : (i, j) ∈ shapeSet R.sh lam
      · exact Or.inl hl
      · right
        rcases h2 with h2 | h2
        · exact absurd (shape_left hij h2) hl
        · obtain ⟨y, hy⟩ := List.exists_mem_of_ne_nil _ h2
          obtain ⟨hy, l, h3, h4, rfl⟩ := (hT' _ _).1 hy
          obtain ⟨x, hx⟩ := List.exists_mem_of_ne_nil _ ((h.dom (i, j)).2 ⟨hij, hl⟩)
          obtain ⟨m, h5, h6, rfl⟩ := h.range _ _ hx
          have := (h.row i j m l hx hy).1
          exact List.ne_nil_of_mem ((hT' _ _).2 ⟨hx, m, h5, by omega, rfl⟩)) (by
      rintro i j hij ⟨h1, h2⟩
      refine ⟨hij, ?_⟩
      by_cases hl : (i, j) ∈ shapeSet R.sh lam
      · exact Or.inl hl
      · right
        rcases h2 with h2 | h2
        · exact absurd (shape_above hlam hij h2) hl
        · obtain ⟨y, hy⟩ := List.exists_mem_of_ne_nil _ h2
          obtain ⟨hy, l, h3, h4, rfl⟩ := (hT' _ _).1 hy
          obtain ⟨x, hx⟩ := List.exists_mem_of_ne_nil _ ((h.dom (i, j)).2 ⟨hij, hl⟩)
          obtain ⟨m, h5, h6, rfl⟩ := h.range _ _ hx
          have := (h.col i j m l hx hy).1
          exact List.ne_nil_of_mem ((hT' _ _).2 ⟨hx, m, h5, by omega, rfl⟩))
  have hnu : ∀ b, b ∈ shapeSet R.sh nu ↔ b ∈ shapeSet R.sh mu ∧ (b ∈ shapeSet R.sh lam ∨ T'.ent b ≠ []) := by
    intro b
    rw [hnS]
    rfl
  -- a box outside `nu` holds the last letter
  have hout : ∀ b, b ∈ shapeSet R.sh mu → b ∉ shapeSet R.sh nu → R.val (k + 1) ∈ T.ent b := by
    intro b h1 h2
    rw [hnu] at h2
    push Not at h2
    obtain ⟨h3, h4⟩ := h2 h1
    obtain ⟨x, hx⟩ := List.exists_mem_of_ne_nil _ ((h.dom b).2 ⟨h1, h3⟩)
    rcases (hsplit b x).1 hx with h5 | h5
    · rw [h4] at h5
      simp at h5
    · exact h5.1
  -- a box of `nu` outside `lam` holds an earlier letter
  have hearly : ∀ b, b ∈ shapeSet R.sh nu → b ∉ shapeSet R.sh lam →
      ∃ l, 1 ≤ l ∧ l ≤ k ∧ R.val l ∈ T.ent b := by
    intro b h1 h2
    rcases ((hnu b).1 h1).2 with h3 | h3
    · exact absurd h3 h2
    · obtain ⟨y, hy⟩ := List.exists_mem_of_ne_nil _ h3
      obtain ⟨hy, l, h4, h5, rfl⟩ := (hT' _ _).1 hy
      exact ⟨l, h4, h5, hy⟩
  refine ⟨nu, T', ?_, ?_, hsplit⟩
  · refine ⟨hn, fun b hb => (hnu b).2 ⟨h.sub hb, Or.inl hb⟩, fun b hb => ((hnu b).1 hb).1, hout,
      fun b hb => hin b _ hb, ?_, ?_, ?_, fun i hi => h.diag i _ hi⟩
    · intro i j hS hij
      have hb := hin _ _ hS
      obtain ⟨l, h1, h2, h3⟩ := hearly _ hij hb.2
      refine ⟨?_, ?_, ?_⟩
      · cases hsv : R.sv with
        | true => rfl
        | false =>
          have := hinj (h.single hsv _ _ hS _ h3)
          omega
      · intro hr
        by_cases hl : (i, j + 1) ∈ shapeSet R.sh lam
        · exact hb.2 (shape_left hb.1 hl)
        · obtain ⟨m, h4, h5, h6⟩ := hearly _ hr hl
          have := (h.row i j _ _ hS h6).1
          omega
      · intro hr
        by_cases hl : (i + 1, j) ∈ shapeSet R.sh lam
        · exact hb.2 (shape_above hlam hb.1 hl)
        · obtain ⟨m, h4, h5, h6⟩ := hearly _ hr hl
          have := (h.col i j _ _ hS h6).1
          omega
    · intro i j hS h1 h2
      exact (h.row i j _ _ hS (hout _ h1 h2)).2 rfl
    · intro i j hS h1 h2
      exact (h.col i j _ _ hS (hout _ h1 h2)).2 rfl
  · have hsub : ∀ b x, x ∈ T'.ent b → x ∈ T.ent b := fun b x hx => ((hT' b x).1 hx).1
    refine ⟨hc, fun b hb => (hnu b).2 ⟨h.sub hb, Or.inl hb⟩, ?_, ?_, ?_, ?_, ?_, ?_⟩
    · intro b
      constructor
      · intro hb
        obtain ⟨y, hy⟩ := List.exists_mem_of_ne_nil _ hb
        have := hin b y (hsub b y hy)
        exact ⟨(hnu b).2 ⟨this.1, Or.inr hb⟩, this.2⟩
      · rintro ⟨h1, h2⟩
        rcases ((hnu b).1 h1).2 with h3 | h3
        · exact absurd h3 h2
        · exact h3
    · intro b x hx
      exact ((hT' b x).1 hx).2
    · intro hsv b x hx y hy
      exact h.single hsv b x (hsub b x hx) y (hsub b y hy)
    · intro i j m l h1 h2
      exact h.row i j m l (hsub _ _ h1) (hsub _ _ h2)
    · intro i j m l h1 h2
      exact h.col i j m l (hsub _ _ h1) (hsub _ _ h2)
    · intro i m h1
      exact h.diag i m (hsub _ _ h1)

/-- A tableau stays one when a letter is added by a move. -/
theorem isTab_step (hinj : Function.Injective R.val) {k : Nat} {mu nu : List Nat}
    {S : Nat × Nat → Prop} (hS : IsMove R lam (k + 1) mu nu S) {T T' : Tab} (h : IsTab R lam k nu T')
    (hc : T.Canon) (hT : ∀ b x, x ∈ T.ent b ↔ x ∈ T'.ent b ∨ (S b ∧ x = R.val (k + 1))) :
    IsTab R lam (k + 1) mu T := by
  have hold : ∀ b l, R.val l ∈ T'.ent b → l ≤ k ∧ b ∈ shapeSet R.sh nu ∧ b ∉ shapeSet R.sh lam := by
    intro b l hl
    obtain ⟨m, _, h2, h3⟩ := h.range b _ hl
    have := hinj h3
    exact ⟨by omega, (h.dom b).1 (List.ne_nil_of_mem hl)⟩
  refine ⟨hc, fun b hb => hS.sub2 (hS.sub1 hb), ?_, ?_, ?_, ?_, ?_, ?_⟩
  · intro b
    constructor
    · intro hb
      obtain ⟨y, hy⟩ := List.exists_mem_of_ne_nil _ hb
      rcases (hT b y).1 hy with h1 | ⟨h1, -⟩
      · have := (h.dom b).1 (List.ne_nil_of_mem h1)
        exact ⟨hS.sub2 this.1, this.2⟩
      · exact hS.inside b h1
    · rintro ⟨h1, h2⟩
      by_cases hn : b ∈ shapeSet R.sh nu
      · obtain ⟨y, hy⟩ := List.exists_mem_of_ne_nil _ ((h.dom b).2 ⟨hn, h2⟩)
        exact List.ne_nil_of_mem ((hT b y).2 (Or.inl hy))
      · exact List.ne_nil_of_mem ((hT b _).2 (Or.inr ⟨hS.diff b h1 hn, rfl⟩))
  · intro b x hx
    rcases (hT b x).1 hx with h1 | ⟨-, rfl⟩
    · obtain ⟨m, h2, h3, h4⟩ := h.range b _ h1
      exact ⟨m, h2, by omega, h4⟩
    · exact ⟨k + 1, by omega, le_rfl, rfl⟩
  · intro hsv b x hx y hy
    have hno : ∀ z, z ∈ T'.ent b → ¬ S b := by
      intro z hz hb
      have := (h.dom b).1 (List.ne_nil_of_mem hz)
      have := (hS.corner b.1 b.2 hb this.1).1
      simp [hsv] at this
    rcases (hT b x).1 hx with h1 | ⟨h1, rfl⟩
    · rcases (hT b y).1 hy with h2 | ⟨h2, -⟩
      · exact h.single hsv b x h1 y h2
      · exact absurd h2 (hno x h1)
    · rcases (hT b y).1 hy with h2 | ⟨-, rfl⟩
      · exact absurd h1 (hno y h2)
      · rfl
  · intro i j m l hm hl
    rcases (hT _ _).1 hm with h1 | ⟨h1, e1⟩
    · rcases (hT _ _).1 hl with h2 | ⟨h2, e2⟩
      · exact h.row i j m l h1 h2
      · have e2 := hinj e2
        have := (hold _ _ h1).1
        exact ⟨by omega, by omega⟩
    · have e1 := hinj e1
      rcases (hT _ _).1 hl with h2 | ⟨h2, e2⟩
      · exfalso
        have h3 := (hold _ _ h2).2.1
        have h4 := shape_left (hS.inside _ h1).1 h3
        exact (hS.corner i j h1 h4).2.1 h3
      · have e2 := hinj e2
        subst e1 e2
        refine ⟨le_rfl, fun _ => hS.row i j h1 (hS.inside _ h2).1 ?_⟩
        intro h3
        have h4 := shape_left (hS.inside _ h1).1 h3
        exact (hS.corner i j h1 h4).2.1 h3
  · intro i j m l hm hl
    rcases (hT _ _).1 hm with h1 | ⟨h1, e1⟩
    · rcases (hT _ _).1 hl with h2 | ⟨h2, e2⟩
      · exact h.col i j m l h1 h2
      · have e2 := hinj e2
        have := (hold _ _ h1).1
        exact ⟨by omega, by omega⟩
    · have e1 := hinj e1
      rcases (hT _ _).1 hl with h2 | ⟨h2, e2⟩
      · exfalso
        have h3 := (hold _ _ h2).2.1
        have h4 := shape_above hS.shape (hS.inside _ h1).1 h3
        exact (hS.corner i j h1 h4).2.2 h3
      · have e2 := hinj e2
        subst e1 e2
        refine ⟨le_rfl, fun _ => hS.col i j h1 (hS.inside _ h2).1 ?_⟩
        intro h3
        have h4 := shape_above hS.shape (hS.inside _ h1).1 h3
        exact (hS.corner i j h1 h4).2.2 h3
  · intro i m hm
    rcases (hT _ _).1 hm with h1 | ⟨h1, e1⟩
    · exact h.diag i m h1
    · rw [hinj e1]
      exact hS.diag i h1

theorem isTab_zero {mu : List Nat} (hm : IsShape R.sh mu) (hlam : IsShape R.sh lam) {T : Tab} :
    IsTab R lam 0 mu T ↔ mu = lam ∧ T = Tab.empty := by
  constructor
  · intro h
    have he : ∀ b, T.ent b = [] := by
      intro b
      by_contra hb
      obtain ⟨y, hy⟩ := List.exists_mem_of_ne_nil _ hb
      obtain ⟨k, h1, h2, -⟩ := h.range b y hy
      omega
    refine ⟨shapeSet_inj hm hlam (Set.Subset.antisymm ?_ h.sub), h.canon.ext canon_empty ?_⟩
    · intro b hb
      by_contra hc
      exact (h.dom b).2 ⟨hb, hc⟩ (he b)
    · intro b x
      rw [he, ent_empty]
  · rintro ⟨rfl, rfl⟩
    exact ⟨canon_empty, le_rfl, fun b => by simp [ent_empty], fun b x hx => by simp [ent_empty] at hx,
      fun _ b x hx => by simp [ent_empty] at hx, fun i j k l hk => by simp [ent_empty] at hk,
      fun i j k l hk => by simp [ent_empty] at hk, fun i k hk => by simp [ent_empty] at hk⟩

theorem isTab_self {K : Nat} {T : Tab} : IsTab R lam K lam T ↔ T = Tab.empty := by
  constructor
  · intro h
    have he : ∀ b, T.ent b = [] := by
      intro b
      by_contra hb
      have := (h.dom b).1 hb
      exact this.2 this.1
    refine h.canon.ext canon_empty ?_
    intro b x
    rw [he, ent_empty]
  · rintro rfl
    exact ⟨canon_empty, le_rfl, fun b => by simp [ent_empty], fun b x hx => by simp [ent_empty] at hx,
      fun _ b x hx => by simp [ent_empty] at hx, fun i j k l hk => by simp [ent_empty] at hk,
      fun i j k l hk => by simp [ent_empty] at hk, fun i k hk => by simp [ent_empty] at hk⟩

/-! ### lists of moves -/

/-- A list of pairs `(nu, boxes)` that holds every move for letter `k` from `mu` exactly once. -/
structure ListsMoves (R : Rules) (lam : List Nat) (k : Nat) (mu : List Nat)
    (ms : List (List Nat × List (Nat × Nat))) : Prop where
  sound : ∀ m ∈ ms, m.2.Nodup ∧ IsMove R lam k mu m.1 (· ∈ m.2)
  complete : ∀ nu S, IsMove R lam k mu nu S → ∃ m ∈ ms, m.1 = nu ∧ ∀ b, b ∈ m.2 ↔ S b
  unique : ∀ m ∈ ms, ∀ m' ∈ ms, m.1 = m'.1 → (∀ b, b ∈ m.2 ↔ b ∈ m'.2) → m = m'

/-- The tableaux built from the moves, letter by letter. -/
def genTabs (R : Rules) (lam : List Nat) (moves : Nat → List Nat → List (List Nat × List (Nat × Nat))) :
    Nat → List Nat → Finset Tab
  | 0, mu => if mu = lam then {Tab.empty} else ∅
  | k + 1, mu => (moves (k + 1) mu).toFinset.biUnion (fun m =>
      (genTabs R lam moves k m.1).image (addAll m.2 (R.val (k + 1))))

variable {moves : Nat → List Nat → List (List Nat × List (Nat × Nat))}

theorem mem_genTabs (hinj : Function.Injective R.val) (hlam : IsShape R.sh lam)
    (hmv : ∀ k mu, IsShape R.sh mu → ListsMoves R lam (k + 1) mu (moves (k + 1) mu)) (k : Nat) {mu : List Nat}
    (hm : IsShape R.sh mu) {T : Tab} : T ∈ genTabs R lam moves k mu ↔ IsTab R lam k mu T := by
  induction k generalizing mu T with
  | zero =>
    rw [isTab_zero hm hlam, genTabs]
    by_cases h : mu = lam <;> simp [h]
  | succ k ih =>
    rw [genTabs]
    simp only [Finset.mem_biUnion, Finset.mem_image, List.mem_toFinset]
    have hL := hmv k mu hm
    constructor
    · rintro ⟨m, hmm, T', hT', rfl⟩
      obtain ⟨hnd, hmove⟩ := hL.sound m hmm
      have hT' := (ih hmove.shape).1 hT'
      have hs := addAll_spec m.2 hnd (R.val (k + 1)) hT'.canon (by
        intro b _ hb
        obtain ⟨l, h1, h2, h3⟩ := hT'.range b _ hb
        have := hinj h3
        omega)
      exact isTab_step hinj hmove hT' hs.1 hs.2
    · intro hT
      obtain ⟨nu, T', hmove, hT', hx⟩ := isTab_unstep hinj hlam hm hT
      obtain ⟨m, hmm, rfl, hb⟩ := hL.complete _ _ hmove
      refine ⟨m, hmm, T', (ih hmove.shape).2 hT', ?_⟩
      have hs := addAll_spec m.2 (hL.sound m hmm).1 (R.val (k + 1)) hT'.canon (by
        intro b _ hb
        obtain ⟨l, h1, h2, h3⟩ := hT'.range b _ hb
        have := hinj h3
        omega)
      refine hs.1.ext hT.canon ?_
      intro b x
      rw [hs.2, hx, hb]

/-- The boxes that hold `x`. -/
def boxesWith (T : Tab) (x : Int) : Finset (Nat × Nat) :=
  ((T.items.filter (fun p => decide (x ∈ p.2))).map Prod.fst).toFinset

theorem mem_boxesWith {T : Tab} {x : Int} {b : Nat × Nat} : b ∈ boxesWith T x ↔ x ∈ T.ent b := by
  simp only [boxesWith, List.mem_toFinset, List.mem_map, List.mem_filter, decide_eq_true_eq]
  constructor
  · rintro ⟨⟨c, s⟩, ⟨h1, h2⟩, rfl⟩
    rw [ent, get?_eq_some.2 h1]
    exact h2
  · intro h
    unfold ent at h
    cases hg : T.get? b with
    | none => simp [hg] at h
    | some s => exact ⟨(b, s), ⟨get?_eq_some.1 hg, by simpa [hg] using h⟩, rfl⟩

theorem isTab_boxesWith_of_lt {k l : Nat} (hinj : Function.Injective R.val) {mu : List Nat} {T : Tab}
    (h : IsTab R lam k mu T) (hl : k < l) : boxesWith T (R.val l) = ∅ := by
  rw [Finset.eq_empty_iff_forall_notMem]
  intro b hb
  obtain ⟨m, h1, h2, h3⟩ := h.range b _ (mem_boxesWith.1 hb)
  have := hinj h3
  omega

/-- Summing over all tableaux, by the last letter. -/
theorem sum_genTabs {M : Type*} [AddCommMonoid M] (hinj : Function.Injective R.val) (hlam : IsShape R.sh lam)
    (hmv : ∀ k mu, IsShape R.sh mu → ListsMoves R lam (k + 1) mu (moves (k + 1) mu)) (k : Nat) {mu : List Nat}
    (hm : IsShape R.sh mu) (f : Tab → M) :
    ∑ T ∈ genTabs R lam moves (k + 1) mu, f T =
      ∑ m ∈ (moves (k + 1) mu).toFinset, ∑ T ∈ genTabs R lam moves k m.1, f (addAll m.2 (R.val (k + 1)) T) := by
  have hL := hmv k mu hm
  have hadd : ∀ m ∈ moves (k + 1) mu, ∀ T ∈ genTabs R lam moves k m.1,
      IsTab R lam k m.1 T ∧ (addAll m.2 (R.val (k + 1)) T).Canon ∧
        ∀ b x, x ∈ (addAll m.2 (R.val (k + 1)) T).ent b ↔ x ∈ T.ent b ∨ (b ∈ m.2 ∧ x = R.val (k + 1)) := by
    intro m hmm T hT
    obtain ⟨hnd, hmove⟩ := hL.sound m hmm
    have hT := (mem_genTabs hinj hlam hmv k hmove.shape).1 hT
    exact ⟨hT, addAll_spec m.2 hnd (R.val (k + 1)) hT.canon (by
      intro b _ hb
      obtain ⟨l, h1, h2, h3⟩ := hT.range b _ hb
      have := hinj h3
      omega)⟩
  -- the move and the rest are determined by the result
  have hdet : ∀ m ∈ moves (k + 1) mu, ∀ T ∈ genTabs R lam moves k m.1,
      ∀ m' ∈ moves (k + 1) mu, ∀ T' ∈ genTabs R lam moves k m'.1,
      addAll m.2 (R.val (k + 1)) T = addAll m'.2 (R.val (k + 1)) T' → m = m' ∧ T = T' := by
    intro m hmm T hT m' hmm' T' hT' he
    obtain ⟨h1, -, h2⟩ := hadd m hmm T hT
    obtain ⟨h1', -, h2'⟩ := hadd m' hmm' T' hT'
    have hno : ∀ {nu : List Nat} {T : Tab}, IsTab R lam k nu T → ∀ b, R.val (k + 1) ∉ T.ent b := by
      intro nu T h b hb
      obtain ⟨l, h1, h2, h3⟩ := h.range b _ hb
      have := hinj h3
      omega
    have hb : ∀ b, b ∈ m.2 ↔ b ∈ m'.2 := by
      intro b
      have e1 := h2 b (R.val (k + 1))
      have e2 := h2' b (R.val (k + 1))
      rw [he] at e1
      have := hno h1 b
      have := hno h1' b
      tauto
    have hT : T = T' := by
      refine h1.canon.ext h1'.canon ?_
      intro b x
      have e1 := h2 b x
      have e2 := h2' b x
      rw [he] at e1
      by_cases hx : x = R.val (k + 1)
      · subst hx
        simp [hno h1 b, hno h1' b]
      · tauto
    subst hT
    refine ⟨hL.unique m hmm m' hmm' ?_ hb, rfl⟩
    refine shapeSet_inj (hL.sound m hmm).2.shape (hL.sound m' hmm').2.shape ?_
    ext b
    by_cases hbl : b ∈ shapeSet R.sh lam
    · exact ⟨fun _ => h1'.sub hbl, fun _ => h1.sub hbl⟩
    · have e1 := h1.dom b
      have e2 := h1'.dom b
      tauto
  rw [genTabs, Finset.sum_biUnion]
  · apply Finset.sum_congr rfl
    intro m hmm
    rw [List.mem_toFinset] at hmm
    rw [Finset.sum_image]
    intro T hT T' hT' he
    exact (hdet m hmm T hT m hmm T' hT' he).2
  · intro m hmm m' hmm' hne
    rw [Function.onFun, Finset.disjoint_left]
    intro X hX hX'
    rw [Finset.mem_image] at hX hX'
    obtain ⟨T, hT, rfl⟩ := hX
    obtain ⟨T', hT', he⟩ := hX'
    simp only [Finset.mem_coe, List.mem_toFinset] at hmm hmm'
    exact hne (hdet m hmm T hT m' hmm' T' hT' he.symm).1

/-- The boxes with a given letter, after adding the last letter. -/
theorem boxesWith_addAll (hinj : Function.Injective R.val) {k : Nat} {nu : List Nat} {aug : List (Nat × Nat)}
    (hnd : aug.Nodup) {T : Tab} (h : IsTab R lam k nu T) (l : Nat) :
    boxesWith (addAll aug (R.val (k + 1)) T) (R.val l) = if l = k + 1 then aug.toFinset else boxesWith T (R.val l) := by
  have hno : ∀ b, R.val (k + 1) ∉ T.ent b := by
    intro b hb
    obtain ⟨l, h1, h2, h3⟩ := h.range b _ hb
    have := hinj h3
    omega
  have hs := addAll_spec aug hnd (R.val (k + 1)) h.canon (fun b _ => hno b)
  ext b
  rw [mem_boxesWith, hs.2]
  split
  · rename_i hl
    subst hl
    simp [hno b]
  · rename_i hl
    rw [mem_boxesWith]
    constructor
    · rintro (h | ⟨-, h⟩)
      · exact h
      · exact absurd (hinj h) hl
    · exact Or.inl

end Verif.Tableaux
