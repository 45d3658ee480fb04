import Verif.Model.PermGenerators
import Verif.Lemmas.PermMore
import Verif.Lemmas.PermCodes
import Verif.Lemmas.FpfWords

/-! # All permutations in one-line notation -/

attribute [-simp] List.getD_eq_getElem?_getD

namespace Verif.Perm

theorem mapM_option_exists {α β : Type} {f : α → Option β} {l : List α} (h : ∀ x ∈ l, ∃ y, f x = some y) :
    ∃ r, l.mapM f = some r ∧ (∀ y, y ∈ r ↔ ∃ x ∈ l, f x = some y) ∧
      (l.Nodup → (∀ x ∈ l, ∀ x' ∈ l, f x = f x' → x = x') → r.Nodup) := by
  induction l with
  | nil => exact ⟨[], rfl, by simp, by simp⟩
  | cons x l ih =>
    obtain ⟨r, h1, h2, h3⟩ := ih (fun y hy => h y (by simp [hy]))
    obtain ⟨y, hy⟩ := h x (by simp)
    refine ⟨y :: r, by rw [List.mapM_cons, hy, h1]; rfl, fun z => ?_, fun hn hi => ?_⟩
    · rw [List.mem_cons, h2]
      constructor
      · rintro (rfl | ⟨x', hx', he⟩)
        · exact ⟨x, by simp, hy⟩
        · exact ⟨x', by simp [hx'], he⟩
      · rintro ⟨x', hx', he⟩
        rcases List.mem_cons.1 hx' with rfl | hx'
        · rw [hy, Option.some.injEq] at he; exact .inl he.symm
        · exact .inr ⟨x', hx', he⟩
    · rw [List.nodup_cons] at hn ⊢
      refine ⟨fun hc => ?_, h3 hn.2 (fun a ha b hb => hi a (by simp [ha]) b (by simp [hb]))⟩
      obtain ⟨x', hx', he⟩ := (h2 y).1 hc
      have := hi x (by simp) x' (by simp [hx']) (hy.trans he.symm)
      subst this
      exact hn.1 hx'

/-! ### itertools.permutations -/

theorem mem_itPermsAux (k : Nat) : ∀ {l r : List Int}, l.length = k → (r ∈ itPermsAux k l ↔ r.Perm l) := by
  induction k with
  | zero =>
    intro l r hl
    rw [List.length_eq_zero_iff] at hl
    subst hl
    simp [itPermsAux]
  | succ k ih =>
    intro l r hl
    rw [itPermsAux]
    simp only [List.mem_flatMap, List.mem_range, List.mem_map]
    constructor
    · rintro ⟨i, hi, r', hr', rfl⟩
      rw [ih (by rw [List.length_eraseIdx_of_lt hi]; omega)] at hr'
      rw [List.getD_eq_getElem _ _ hi]
      exact (hr'.cons _).trans (List.getElem_cons_eraseIdx_perm hi)
    · intro h
      cases r with
      | nil => have := h.length_eq; simp at this; omega
      | cons a r' =>
        obtain ⟨i, hi, he⟩ := List.getElem_of_mem (h.subset (List.mem_cons_self))
        refine ⟨i, hi, r', ?_, by rw [List.getD_eq_getElem _ _ hi, he]⟩
        rw [ih (by rw [List.length_eraseIdx_of_lt hi]; omega)]
        have h2 := List.getElem_cons_eraseIdx_perm hi
        rw [he] at h2
        exact (h.trans h2.symm).cons_inv

theorem nodup_itPermsAux (k : Nat) : ∀ {l : List Int}, l.length = k → l.Nodup → (itPermsAux k l).Nodup := by
  induction k with
  | zero => intro l _ _; simp [itPermsAux]
  | succ k ih =>
    intro l hl hn
    rw [itPermsAux, List.nodup_flatMap]
    constructor
    · intro i hi
      rw [List.mem_range] at hi
      refine (ih (by rw [List.length_eraseIdx_of_lt hi]; omega) (hn.eraseIdx i)).map ?_
      intro a b h
      simpa using h
    · refine List.Pairwise.imp_of_mem ?_ List.nodup_range
      intro i j hi hj hij
      rw [List.mem_range] at hi hj
      rw [Function.onFun, List.disjoint_left]
      intro r h1 h2
      rw [List.mem_map] at h1 h2
      obtain ⟨_, _, rfl⟩ := h1
      obtain ⟨_, _, he⟩ := h2
      rw [List.cons.injEq, List.getD_eq_getElem _ _ hi, List.getD_eq_getElem _ _ hj] at he
      exact hij ((hn.getElem_inj_iff.1 he.1).symm)

/-! ### signs -/

/-- The absolute values. -/
def absLine (l : List Int) : List Int := l.map (fun a => (a.natAbs : Int))

theorem length_signLine (args : List Int) : ∀ v, (signLine v args).length = args.length := by
  induction args with
  | nil => intro v; rfl
  | cons a args ih => intro v; simp [signLine, ih]

theorem mul_sign (a : Int) (v : Nat) : a * (-1) ^ (v % 2) = if v % 2 = 0 then a else -a := by
  rcases Nat.mod_two_eq_zero_or_one v with h | h <;> rw [h] <;> simp

theorem absLine_signLine (args : List Int) : ∀ v, absLine (signLine v args) = absLine args := by
  induction args with
  | nil => intro v; rfl
  | cons a args ih =>
    intro v
    have := ih (v / 2)
    rw [absLine, absLine] at this
    rw [signLine, absLine, absLine, List.map_cons, List.map_cons, this, mul_sign]
    split <;> simp

theorem signLine_inj {args : List Int} (hpos : ∀ a ∈ args, 0 < a) : ∀ {v v' : Nat}, v < 2 ^ args.length → v' < 2 ^ args.length →
    signLine v args = signLine v' args → v = v' := by
  induction args with
  | nil => intro v v' h h' _; simp at h h'; omega
  | cons a args ih =>
    intro v v' h h' he
    rw [List.length_cons, pow_succ] at h h'
    rw [signLine, signLine, List.cons.injEq, mul_sign, mul_sign] at he
    have h1 := ih (fun b hb => hpos b (by simp [hb])) (v := v / 2) (v' := v' / 2) (by omega) (by omega) he.2
    have h2 := hpos a (by simp)
    have h3 := he.1
    split at h3 <;> split at h3 <;> omega

theorem exists_signLine {args : List Int} (hpos : ∀ a ∈ args, 0 < a) : ∀ {r : List Int}, absLine r = args →
    ∃ v < 2 ^ args.length, signLine v args = r := by
  induction args with
  | nil =>
    intro r h
    rw [absLine, List.map_eq_nil_iff] at h
    subst h
    exact ⟨0, by simp, rfl⟩
  | cons a args ih =>
    intro r h
    cases r with
    | nil => simp [absLine] at h
    | cons b r =>
      rw [absLine, List.map_cons, List.cons.injEq] at h
      obtain ⟨v, hv, he⟩ := ih (fun b hb => hpos b (by simp [hb])) h.2
      have h0 := h.1
      have h2 := hpos a (by simp)
      by_cases hb : 0 < b
      · refine ⟨2 * v, by rw [List.length_cons, pow_succ]; omega, ?_⟩
        rw [signLine, mul_sign, if_pos (by omega), show 2 * v / 2 = v by omega, he, List.cons.injEq]
        exact ⟨by omega, rfl⟩
      · refine ⟨2 * v + 1, by rw [List.length_cons, pow_succ]; omega, ?_⟩
        rw [signLine, mul_sign, if_neg (by omega), show (2 * v + 1) / 2 = v by omega, he, List.cons.injEq]
        exact ⟨by omega, rfl⟩

/-! ### one-line notations of a given length -/

theorem length_caller (n : Nat) : (caller n).length = n := by simp [caller]

theorem nodup_caller (n : Nat) : (caller n).Nodup := (caller_sorted n).imp (fun h => ne_of_lt h)

theorem isOneline_iff_perm (l : List Int) : isOneline l = true ↔ (absLine l).Perm (caller l.length) := by
  constructor
  · intro h
    have hnd : (absLine l).Nodup := by
      rw [List.nodup_iff_injective_getElem]
      rintro ⟨i, hi⟩ ⟨j, hj⟩ hij
      simp only [absLine, List.getElem_map, List.length_map] at hij hi hj
      refine Fin.ext (natAbs_inj_of_isOneline h hi hj ?_)
      exact Int.ofNat.inj hij
    have hsub : absLine l ⊆ caller l.length := by
      intro a ha
      obtain ⟨b, hb, rfl⟩ := List.mem_map.1 ha
      have := ((isOneline_iff l).1 h).2 b hb
      rw [mem_caller]
      omega
    refine (List.subperm_of_subset hnd hsub).perm_of_length_le ?_
    rw [length_caller, absLine, List.length_map]
  · intro h
    rw [isOneline_iff]
    constructor
    · intro k hk
      have : ((k : Int) + 1) ∈ caller l.length := by rw [mem_caller]; omega
      obtain ⟨b, hb, he⟩ := List.mem_map.1 (h.symm.subset this)
      exact ⟨b, hb, by omega⟩
    · intro a ha
      have := h.subset (List.mem_map.2 ⟨a, ha, rfl⟩)
      rw [mem_caller] at this
      omega

theorem construct_of_isOneline {l : List Int} (h : isOneline l = true) :
    ∃ w, construct l = some w ∧ w.rank ≤ l.length ∧ l = line w.call l.length := by
  obtain ⟨w, h1, h2⟩ := construct_spec h
  refine ⟨w, h1, rank_le_of_odd ?_, ?_⟩
  · have := lineCall_odd h
    rwa [show w.call = lineCall l from funext h2]
  · refine List.ext_getElem (by simp) (fun k g1 g2 => ?_)
    rw [getElem_line, h2, lineCall, if_pos (by omega), List.getD_eq_getElem _ _ (by omega)]
    congr 1
    omega

theorem isOneline_call {w : SPerm} {n : Nat} (h : w.rank ≤ n) : isOneline (line w.call n) = true :=
  isOneline_line ((call_odd w).mono h)

theorem construct_call {w : SPerm} {n : Nat} (h : w.rank ≤ n) : construct (line w.call n) = some w := by
  obtain ⟨v, h1, h2⟩ := construct_line ((call_odd w).mono h)
  rw [h1, ext_call h2]

/-- The constructor is a bijection from the one-line notations of length `n` to the permutations of rank at most `n`. -/
theorem construct_list {n : Nat} {L : List (List Int)} (hn : L.Nodup) (hL : ∀ l ∈ L, l.length = n ∧ isOneline l = true) :
    ∃ r, L.mapM construct = some r ∧ r.Nodup ∧ ∀ w, w ∈ r ↔ w.rank ≤ n ∧ line w.call n ∈ L := by
  obtain ⟨r, h1, h2, h3⟩ := mapM_option_exists (f := construct) (l := L) (fun l hl => by
    obtain ⟨w, hw, _⟩ := construct_of_isOneline (hL l hl).2
    exact ⟨w, hw⟩)
  refine ⟨r, h1, h3 hn (fun l hl l' hl' he => ?_), fun w => ?_⟩
  · obtain ⟨g1, g2⟩ := hL l hl
    obtain ⟨g3, g4⟩ := hL l' hl'
    obtain ⟨w, k1, k2, k3⟩ := construct_of_isOneline g2
    obtain ⟨w', k4, k5, k6⟩ := construct_of_isOneline g4
    rw [k1, k4, Option.some.injEq] at he
    rw [k3, k6, he, g1, g3]
  · rw [h2]
    constructor
    · rintro ⟨l, hl, he⟩
      obtain ⟨g1, g2⟩ := hL l hl
      obtain ⟨w', k1, k2, k3⟩ := construct_of_isOneline g2
      rw [k1, Option.some.injEq] at he
      subst he
      rw [g1] at k2 k3
      exact ⟨k2, k3 ▸ hl⟩
    · rintro ⟨g1, g2⟩
      exact ⟨_, g2, construct_call g1⟩

theorem absLine_of_pos {l : List Int} (h : ∀ a ∈ l, 0 < a) : absLine l = l := by
  rw [absLine]
  conv_rhs => rw [← List.map_id l]
  refine List.map_congr_left (fun a ha => ?_)
  have := h a ha
  simp only [id]
  omega

theorem line_pos {w : SPerm} {n : Nat} (h : w.rank ≤ n) : (∀ a ∈ line w.call n, 0 < a) ↔ ∀ x : Int, 0 < x → 0 < w.call x := by
  constructor
  · intro h1 x hx
    by_cases hxn : x ≤ n
    · refine h1 _ (List.mem_map.2 ⟨(x - 1).toNat, List.mem_range.2 (by omega), ?_⟩)
      congr 1
      omega
    · rw [(call_odd w).out x (by omega)]; exact hx
  · intro h1 a ha
    obtain ⟨k, _, rfl⟩ := List.mem_map.1 ha
    exact h1 _ (by omega)

theorem allPerms?_false (n : Nat) : ∃ r, allPerms? n false = some r ∧ r.Nodup ∧
    ∀ w, w ∈ r ↔ w.rank ≤ n ∧ ∀ x : Int, 0 < x → 0 < w.call x := by
  have hmem : ∀ l, l ∈ itPermutations (caller n) ↔ l.Perm (caller n) := by
    intro l
    rw [itPermutations, length_caller]
    exact mem_itPermsAux n (length_caller n)
  have hpos : ∀ l : List Int, l.Perm (caller n) → ∀ a ∈ l, 0 < a := by
    intro l hl a ha
    exact (mem_caller.1 (hl.subset ha)).1
  have hone : ∀ l : List Int, (∀ a ∈ l, 0 < a) → l.length = n → (isOneline l = true ↔ l.Perm (caller n)) := by
    intro l hl hln
    rw [isOneline_iff_perm, absLine_of_pos hl, hln]
  obtain ⟨r, h1, h2, h3⟩ := construct_list (n := n) (L := itPermutations (caller n))
    (by rw [itPermutations, length_caller]; exact nodup_itPermsAux n (length_caller n) (nodup_caller n))
    (fun l hl => by
      rw [hmem] at hl
      have := hl.length_eq
      rw [length_caller] at this
      exact ⟨this, (hone l (hpos l hl) this).2 hl⟩)
  refine ⟨r, ?_, h2, fun w => ?_⟩
  · rw [allPerms?]
    simpa using h1
  · rw [h3, hmem]
    refine and_congr_right (fun h => ?_)
    rw [← line_pos h]
    constructor
    · exact hpos _
    · intro g
      exact (hone _ g (by simp)).1 (isOneline_call h)

theorem allPerms?_true (n : Nat) : ∃ r, allPerms? n true = some r ∧ r.Nodup ∧ ∀ w, w ∈ r ↔ w.rank ≤ n := by
  have hmem : ∀ l, l ∈ itPermutations (caller n) ↔ l.Perm (caller n) := by
    intro l
    rw [itPermutations, length_caller]
    exact mem_itPermsAux n (length_caller n)
  have hpos : ∀ l : List Int, l.Perm (caller n) → (∀ a ∈ l, 0 < a) ∧ l.length = n := by
    intro l hl
    exact ⟨fun a ha => (mem_caller.1 (hl.subset ha)).1, by rw [hl.length_eq, length_caller]⟩
  obtain ⟨L, hL⟩ : ∃ L, (itPermutations (caller n)).flatMap (fun args => (List.range (2 ^ n)).map (fun v => signLine v args)) = L :=
    ⟨_, rfl⟩
  have hm : ∀ l, l ∈ L ↔ (absLine l).Perm (caller n) := by
    intro l
    rw [← hL]
    simp only [List.mem_flatMap, List.mem_map, List.mem_range, hmem]
    constructor
    · rintro ⟨args, ha, v, _, rfl⟩
      rw [absLine_signLine, absLine_of_pos (hpos _ ha).1]
      exact ha
    · intro h
      obtain ⟨v, hv, he⟩ := exists_signLine (hpos _ h).1 (r := l) rfl
      rw [(hpos _ h).2] at hv
      exact ⟨_, h, v, hv, he⟩
  have hlen : ∀ l ∈ L, l.length = n := by
    intro l hl
    have := (hpos _ ((hm l).1 hl)).2
    rwa [absLine, List.length_map] at this
  obtain ⟨r, h1, h2, h3⟩ := construct_list (n := n) (L := L) (by
      rw [← hL, List.nodup_flatMap]
      constructor
      · intro args ha
        rw [hmem] at ha
        obtain ⟨g1, g2⟩ := hpos _ ha
        refine List.Nodup.map_on ?_ List.nodup_range
        intro v hv v' hv' he
        rw [List.mem_range] at hv hv'
        exact signLine_inj g1 (by rwa [g2]) (by rwa [g2]) he
      · have hnd : (itPermutations (caller n)).Nodup := by
          rw [itPermutations, length_caller]; exact nodup_itPermsAux n (length_caller n) (nodup_caller n)
        refine List.Pairwise.imp_of_mem ?_ hnd
        intro a b ha hb hab
        rw [hmem] at ha hb
        rw [Function.onFun, List.disjoint_left]
        intro l g1 g2
        rw [List.mem_map] at g1 g2
        obtain ⟨v, _, rfl⟩ := g1
        obtain ⟨v', _, he⟩ := g2
        have := congrArg absLine he
        rw [absLine_signLine, absLine_signLine, absLine_of_pos (hpos _ ha).1, absLine_of_pos (hpos _ hb).1] at this
        exact hab this.symm)
    (fun l hl => ⟨hlen l hl, by rw [isOneline_iff_perm, hlen l hl]; exact (hm l).1 hl⟩)
  refine ⟨r, ?_, h2, fun w => ?_⟩
  · rw [allPerms?, ← h1, ← hL]
    rfl
  · rw [h3, hm]
    refine and_iff_left_of_imp (fun h => ?_)
    have := (isOneline_iff_perm _).1 (isOneline_call h)
    rwa [length_line] at this

end Verif.Perm
