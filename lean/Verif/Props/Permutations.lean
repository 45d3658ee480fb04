import Verif.Lemmas.HeckeLevels

/-! # C32-C37: signed permutations -/

namespace Verif.Perm

open Verif.PermSpec

attribute [local irreducible] mul s inverse identity len mod

/-! ## C32 -/

/-- Specification: `l` is a signed permutation of `1, ..., len(l)`. -/
def IsSigned (l : List Int) : Prop := (l.map Int.natAbs).Perm ((List.range l.length).map (· + 1))

theorem isSigned_iff (l : List Int) : IsSigned l ↔ isOneline l = true := by
  have hnd : ((List.range l.length).map (· + 1)).Nodup := List.nodup_range.map (fun a b h => by simpa using h)
  constructor
  · intro h
    rw [isOneline_iff]
    have hm : ∀ x, x ∈ l.map Int.natAbs ↔ x ∈ (List.range l.length).map (· + 1) := fun x => h.mem_iff
    simp only [List.mem_map, List.mem_range] at hm
    constructor
    · intro k hk
      exact (hm (k + 1)).2 ⟨k, hk, rfl⟩
    · intro a ha
      obtain ⟨k, hk, he⟩ := (hm a.natAbs).1 ⟨a, ha, rfl⟩
      omega
  · intro h
    have hn : (l.map Int.natAbs).Nodup := by
      rw [List.nodup_iff_injective_get]
      intro i j hij
      have hi : (i : Nat) < l.length := by simpa using i.2
      have hj : (j : Nat) < l.length := by simpa using j.2
      simp only [List.get_eq_getElem, List.getElem_map] at hij
      exact Fin.ext (natAbs_inj_of_isOneline h hi hj hij)
    rw [isOneline_iff] at h
    refine (List.perm_ext_iff_of_nodup hn hnd).2 (fun x => ?_)
    simp only [List.mem_map, List.mem_range]
    constructor
    · rintro ⟨a, ha, rfl⟩
      have := h.2 a ha
      exact ⟨a.natAbs - 1, by omega, by omega⟩
    · rintro ⟨k, hk, rfl⟩
      exact h.1 k hk

theorem isOneline_of_trim (l : List Int) (h : isOneline (trimLine l) = true) : isOneline l = true := by
  rw [trimLine_eq] at h
  split at h
  · rename_i hc
    have hl := List.length_pos_iff.2 hc.1
    have ih := isOneline_of_trim l.dropLast h
    obtain ⟨m, a, rfl⟩ : ∃ m a, l = m ++ [a] := ⟨l.dropLast, l.getLast hc.1, (List.dropLast_append_getLast hc.1).symm⟩
    rw [List.dropLast_concat] at ih
    have ha : a = ((m.length + 1 : Nat) : Int) := by simpa using hc.2
    rw [isOneline_iff] at ih ⊢
    rw [List.length_append, List.length_singleton]
    constructor
    · intro k hk
      by_cases hk' : k < m.length
      · obtain ⟨b, hb, he⟩ := ih.1 k hk'
        exact ⟨b, by simp [hb], he⟩
      · exact ⟨a, by simp, by omega⟩
    · intro b hb
      rw [List.mem_append, List.mem_singleton] at hb
      rcases hb with hb | rfl
      · have := ih.2 b hb; omega
      · omega
  · exact h
termination_by l.length
decreasing_by simp; omega

/-- C32: the constructor accepts exactly the signed permutations of `1, ..., n`. -/
theorem C32_construct_iff (l : List Int) : (∃ w, construct l = some w) ↔ IsSigned l := by
  rw [isSigned_iff]
  constructor
  · rintro ⟨w, hw⟩
    unfold construct at hw
    split at hw
    · rename_i h; exact isOneline_of_trim l h
    · cases hw
  · intro h
    obtain ⟨w, hw, -⟩ := construct_spec h
    exact ⟨w, hw⟩

/-- C32: and the result is the function described by the list. -/
theorem C32_construct {l : List Int} {w : SPerm} (h : construct l = some w) :
    (∀ k (hk : k < l.length), w.call ((k : Int) + 1) = l[k]) ∧ (∀ i : Int, i > l.length → w.call i = i) ∧
      ∀ i, w.call (-i) = -w.call i := by
  have hl := (isSigned_iff l).1 ((C32_construct_iff l).1 ⟨w, h⟩)
  obtain ⟨w', hw', hc⟩ := construct_spec hl
  rw [h] at hw'
  cases hw'
  refine ⟨fun k hk => ?_, fun i hi => ?_, (call_odd w).neg⟩
  · rw [hc, lineCall, if_pos (by omega), List.getD_eq_getElem _ _ (by omega)]
    congr 1
    omega
  · rw [hc]; exact (lineCall_odd hl).out i (by omega)

/-- C32: `==` (equality of the one-line notations) is equality of functions. -/
theorem C32_eq_iff (u v : SPerm) : u.oneline = v.oneline ↔ ∀ i, u.call i = v.call i := by
  constructor
  · intro h i; rw [call_eq, call_eq, h]
  · intro h; rw [ext_call h]

/-- C32: a product of permutations is a permutation (the constructor in `__mul__` does not raise), and it is the
composition. -/
theorem C32_mul (u v : SPerm) : ∃ w, mul? u v = some w ∧ ∀ i, w.call i = u.call (v.call i) := mul?_spec u v

theorem C32_inverse (w : SPerm) : ∃ v, inverse? w = some v ∧ ∀ i, v.call (w.call i) = i ∧ w.call (v.call i) = i := by
  obtain ⟨v, h, hv⟩ := inverse?_spec w
  refine ⟨v, h, fun i => ⟨hv i, ?_⟩⟩
  obtain ⟨j, rfl⟩ := (call_odd w).surj_on i
  rw [hv]

/-- C32: the group laws. -/
theorem C32_group (u v w : SPerm) : mul (mul u v) w = mul u (mul v w) ∧ mul identity w = w ∧ mul w identity = w ∧
    mul w (inverse w) = identity ∧ mul (inverse w) w = identity :=
  ⟨mul_assoc' u v w, one_mul' w, mul_one' w, mul_inverse w, inverse_mul w⟩

/-- C32: `s_i` exchanges `i` and `i + 1` (negates 1 if `i = 0`). -/
theorem C32_s (i : Nat) : ∃ w, s? i = some w ∧ (∀ a : Int, 0 < a → w.call a =
    if i = 0 then (if a = 1 then -1 else a) else if a = i then i + 1 else if a = i + 1 then i else a) := by
  obtain ⟨w, h, hw⟩ := s?_spec i
  refine ⟨w, h, fun a ha => ?_⟩
  rw [hw, sFun]
  (repeat' split) <;> omega

example : (construct [2, -3, 1, 4, 5]).map SPerm.oneline = some [2, -3, 1] := by decide +kernel
example : construct [2, 2] = none := by decide +kernel
example : IsSigned [2, -3, 1, 4, 5] := by unfold IsSigned; decide
example : ((construct [2, -3, 1]).bind (fun u => (construct [-2, 1]).bind (fun v => mul? u v))).map SPerm.oneline =
    some [3, 2, 1] := by decide +kernel

/-! ## C33 -/

/-- C33: the parity assertion in `__len__` never fails. -/
theorem C33_len_defined (w : SPerm) : len? w = some (len w) := len?_eq w

/-- C33: right descents. -/
theorem C33_right (w : SPerm) (i : Nat) :
    (i ∈ rightDescents w → len (mul w (s i)) + 1 = len w) ∧ (i ∉ rightDescents w → len (mul w (s i)) = len w + 1) := by
  rw [mem_rightDescents]
  exact ⟨fun h => (len_mul_s_of_desc h).symm, len_mul_s_of_not⟩

/-- C33: left descents. -/
theorem C33_left (w : SPerm) (i : Nat) :
    (i ∈ leftDescents w → len (mul (s i) w) + 1 = len w) ∧ (i ∉ leftDescents w → len (mul (s i) w) = len w + 1) :=
  ⟨fun h => (len_s_mul_of_desc h).symm, len_s_mul_of_not⟩

theorem C33_zero (w : SPerm) : len w = 0 ↔ w = identity := len_eq_zero

theorem C33_inverse (w : SPerm) : len (inverse w) = len w := len_inverse w

/-- C33: the descent sets contain each descent once. -/
theorem C33_nodup (w : SPerm) : (rightDescents w).Nodup ∧ (leftDescents w).Nodup :=
  ⟨rightDescents_nodup w, rightDescents_nodup _⟩

example : (construct [2, -3, 1]).map len = some 5 ∧ (construct [2, -3, 1]).map rightDescents = some [1] := by
  decide +kernel

/-! ## C34 -/

/-- C34: `get_reduced_word` terminates (recursion depth `len(w) + 1` suffices) and returns a word with product `w`,
whose length is the least possible one, `len(w)`. -/
theorem C34_reduced_word (w : SPerm) {depth : Nat} (hd : len w < depth) :
    ∃ a, getReducedWord? depth w = some a ∧ fromWord a = w ∧ a.length = len w ∧
      ∀ b, fromWord b = w → a.length ≤ b.length := by
  obtain ⟨a, ha, h1, h2⟩ := getReducedWord?_spec depth w hd
  refine ⟨a, ha, h1, h2, fun b hb => ?_⟩
  rw [h2, ← hb]
  exact len_fromWord_le b

/-- C34: so `len` is the word length with respect to the generators `s_i`. -/
theorem C34_len_least (w : SPerm) : (∃ a, fromWord a = w ∧ a.length = len w) ∧ ∀ a, fromWord a = w → len w ≤ a.length :=
  ⟨⟨_, (getReducedWord_reduced w).1, (getReducedWord_reduced w).2⟩, fun a ha => ha ▸ len_fromWord_le a⟩

/-- C34: the result does not depend on the bound for the recursion depth. -/
theorem C34_depth (w : SPerm) {d e : Nat} (hd : len w < d) (he : len w < e) :
    getReducedWord? d w = getReducedWord? e w := by rw [getReducedWord?_eq hd, getReducedWord?_eq he]

example : (construct [2, -3, 1]).map getReducedWord = some [1, 2, 1, 0, 1] := by decide +kernel

/-! ## C35 -/

/-- C35: after any history of creating, advancing and abandoning generators, in any interleaving, every generator
`w.get_reduced_words()` has yielded only words of length `len(w)` with product `w`, none of them twice, and if it is
exhausted it has yielded all of them; it never fails. `ord` is the (arbitrary) order of iteration of descent sets. -/
theorem C35_reduced_words {ord : SPerm → List Nat} (ho : ∀ w, (ord w).Perm (rightDescents w)) (history : List WordAction)
    {g : LiveGen} (hg : g ∈ (WordWorld.run ord history).gens) :
    g.failed = false ∧ g.emitted.Nodup ∧
      (∀ a ∈ g.emitted, fromWord a = g.perm ∧ a.length = len g.perm) ∧
      (g.finished = true → ∀ a, a ∈ g.emitted ↔ fromWord a = g.perm ∧ a.length = len g.perm) := by
  have h := (good_run ho history).2 g hg
  exact ⟨h.ok, h.nodup, h.sub, h.fin⟩

/-- C35: and every generator is exhausted after finitely many further steps, whatever the history. -/
theorem C35_exhausted {ord : SPerm → List Nat} (ho : ∀ w, (ord w).Perm (rightDescents w)) (history : List WordAction)
    {k : Nat} {g : LiveGen} (hk : (WordWorld.run ord history).gens[k]? = some g) :
    ∃ m g', (WordWorld.run ord (history ++ List.replicate m (.resume k))).gens[k]? = some g' ∧ g'.perm = g.perm ∧
      g'.finished = true := resume_exhausts ho hk

/-- C35: the `k`-th call of `get_reduced_words` creates the `k`-th generator. -/
theorem C35_create (ord : SPerm → List Nat) (history : List WordAction) (w : SPerm) :
    ∃ g, (WordWorld.run ord (history ++ [.create w])).gens = (WordWorld.run ord history).gens ++ [g] ∧ g.perm = w ∧
      g.emitted = [] := by
  rw [run_concat]
  exact ⟨_, rfl, rfl, rfl⟩

/-- Two interleaved generators for the longest element of `S_3`, and one for the same permutation after the first one is
exhausted, which reads the cache. -/
example : ((construct [3, 2, 1]).map (fun w =>
    ((WordWorld.run rightDescents ([.create w, .create w, .resume 0, .resume 1, .resume 0, .resume 0, .create w, .resume 2,
      .resume 2, .resume 2])).gens.map (fun g => (g.emitted, g.finished))))) =
    some [([[1, 2, 1], [2, 1, 2]], true), ([[1, 2, 1]], false), ([[1, 2, 1], [2, 1, 2]], true)] := by decide +kernel

/-! ## C36 -/

/-- C36: `u % v` terminates and does not depend on the element of the descent set that is chosen in each step. -/
theorem C36_choice {ch : Nat → List Nat → Nat} (hch : ∀ t S, S ≠ [] → ch t S ∈ S) (u v : SPerm) {depth : Nat}
    (hd : len v < depth) : mod? ch depth u v = some (mod u v) := mod?_mod hch hd

theorem C36_assoc (u v w : SPerm) : mod (mod u v) w = mod u (mod v w) := mod_assoc u v w

theorem C36_unit (u : SPerm) : mod u identity = u ∧ mod identity u = u := ⟨mod_identity u, identity_mod u⟩

/-- C36: `u % s_i`. -/
theorem C36_generator (u : SPerm) (i : Nat) :
    mod u (s i) = if len u < len (mul u (s i)) then mul u (s i) else u := by
  rw [mod_s, act_eq]
  have := C33_right u i
  by_cases h : i ∈ rightDescents u
  · rw [if_pos h, if_neg]; have := this.1 h; omega
  · rw [if_neg h, if_pos]; have := this.2 h; omega

theorem C36_idempotent (i : Nat) : mod (s i) (s i) = s i := by
  rw [C36_generator, s_mul_s, len_identity, if_neg (by omega)]

theorem C36_additive {u v : SPerm} (h : len (mul u v) = len u + len v) : mod u v = mul u v := mod_of_len h

/-- C36: the Demazure product of a word. -/
theorem C36_word (a : List Nat) : a.foldl (fun u i => mod u (s i)) identity = demazure a := by
  have : ∀ (a : List Nat) (u : SPerm), a.foldl (fun u i => mod u (s i)) u =
      a.foldl (fun u i => if len u < len (mul u (s i)) then mul u (s i) else u) u := by
    intro a
    induction a with
    | nil => intro u; rfl
    | cons i a ih => intro u; simp only [List.foldl_cons]; rw [C36_generator, ih]
  exact this a identity

example : mod (s 1) (fromWord [2, 1]) = fromWord [1, 2, 1] ∧ mod (fromWord [1, 2, 1]) (s 2) = fromWord [1, 2, 1] ∧
    fromWord [1, 2, 1] ≠ mul (fromWord [1, 2, 1]) (s 2) := by decide +kernel

/-! ## C37

The property fails: `C37_interleaved_violated`.  It holds for all histories in which no generator is resumed after
another one with the same `n` and `ascent_bound` has been resumed (`NoOverlap`). -/

/-- C37 for histories without overlap: the `t`-th level yielded is the set of pairs `(Demazure product of w, w)` for the
words `w` of length `t` in the letters `1, ..., n - 1` with fewer than `ascent_bound` weak ascents. -/
theorem C37_levels_partial {history : List LevelAction} (hh : NoOverlap history) {k : Nat} {g : LevelGen}
    (hk : (LevelWorld.run history).gens[k]? = some g) {n : Nat} {lb ab : Option Int}
    (ha : (createArgs history)[k]? = some (n, lb, ab)) {t : Nat} (ht : t < g.emitted.length) :
    g.emitted[t].Nodup ∧ ∀ p w, (p, w) ∈ g.emitted[t] ↔ LevelWord n ab t w ∧ p = demazure w := by
  obtain ⟨lb', h1, h2, -, -⟩ := (levelInv_run history hh).gens k g hk
  rw [ha] at h1
  simp only [Option.some.injEq, Prod.mk.injEq] at h1
  obtain ⟨rfl, -, rfl⟩ := h1
  have he : g.emitted[t] = trueLevel g.n g.ab t := by
    simp [h2.emitted]
  rw [he]
  exact trueLevel_spec g.n g.ab t

/-- C37 for histories without overlap: a generator stops exactly when it has yielded `length_bound + 1` levels or when
there are no words left. -/
theorem C37_stops_partial {history : List LevelAction} (hh : NoOverlap history) {k : Nat} {g : LevelGen}
    (hk : (LevelWorld.run history).gens[k]? = some g) {n : Nat} {lb ab : Option Int}
    (ha : (createArgs history)[k]? = some (n, lb, ab)) :
    (∀ b, lb = some b → 0 ≤ b → (g.emitted.length : Int) ≤ b + 1) ∧
    (g.finished = true → (∃ b, lb = some b ∧ (g.emitted.length : Int) = b + 1) ∨
      ∀ w, ¬ LevelWord n ab g.emitted.length w) := by
  obtain ⟨lb', h1, h2, -, -⟩ := (levelInv_run history hh).gens k g hk
  rw [ha] at h1
  simp only [Option.some.injEq, Prod.mk.injEq] at h1
  obtain ⟨rfl, rfl, rfl⟩ := h1
  have hl : g.emitted.length = g.index := by rw [h2.emitted]; simp
  rw [hl]
  refine ⟨?_, fun hf => ?_⟩
  · rintro b rfl hb
    exact h2.le hb
  · rcases h2.stop hf with h | h
    · right
      intro w hw
      have := ((trueLevel_spec g.n g.ab g.index).2 (demazure w) w).2 ⟨hw, rfl⟩
      rw [h] at this
      cases this
    · left
      cases lb with
      | none => simp at h
      | some b => exact ⟨b, rfl, h.2⟩

/-- C37 for histories without overlap: `next` makes a generator that has not stopped yield one more level or stop. -/
theorem C37_progress_partial {history : List LevelAction} {k : Nat} (hh : NoOverlap (history ++ [.resume k])) {g : LevelGen}
    (hk : (LevelWorld.run history).gens[k]? = some g) :
    ∃ g', (LevelWorld.run (history ++ [.resume k])).gens[k]? = some g' ∧
      (g'.finished = true ∨ g'.emitted.length = g.emitted.length + 1) := by
  have hi := levelInv_run history (noOverlap_prefix hh)
  obtain ⟨lb, h1, h2, -, h4⟩ := hi.gens k g hk
  have hs := h4.resolve_right (noOverlap_not_stale hh)
  obtain ⟨-, -, -, -, -, n6, n7⟩ := next_spec hi.cache hs h2
  have hlt : k < (LevelWorld.run history).gens.length := (List.getElem?_eq_some_iff.1 hk).1
  refine ⟨(g.next (LevelWorld.run history).cache).1, ?_, ?_⟩
  · have hrun : LevelWorld.run (history ++ [.resume k]) = (LevelWorld.run history).step (.resume k) := by
      rw [LevelWorld.run, List.foldl_append]; rfl
    rw [hrun, LevelWorld.step, hk]
    exact List.getElem?_set_self hlt
  · rcases n7 with n7 | n7
    · exact Or.inl n7
    · right
      rw [n6.emitted, h2.emitted]
      simp [n7]

/-- The first generator yields levels 0, 1, 2 and is abandoned; the second one yields level 0; the third one yields
levels 0 to 4; then the second one is resumed. -/
def interleaved : List LevelAction :=
  [.create 2 none none, .resume 0, .resume 0, .resume 0, .create 2 none none, .resume 1, .create 2 none none,
    .resume 2, .resume 2, .resume 2, .resume 2, .resume 2, .resume 1, .resume 1]

/-- C37 fails: the third level yielded by the second generator consists of a word of length 4. -/
theorem C37_interleaved_violated :
    ((LevelWorld.run interleaved).gens[1]?.map (fun g => g.emitted.map (fun l => l.map Prod.snd))) =
      some [[[]], [[1]], [[1, 1, 1, 1]]] := by decide +kernel

/-- The condition of the partial theorems holds for the history with the last two steps left out. -/
example : NoOverlap (interleaved.take 12) ∧
    ((LevelWorld.run (interleaved.take 12)).gens[2]?.map (fun g => g.emitted.map (fun l => l.map Prod.snd))) =
      some [[[]], [[1]], [[1, 1]], [[1, 1, 1]], [[1, 1, 1, 1]]] :=
  ⟨noOverlap_of_test (by decide +kernel), by decide +kernel⟩

/-- Generators with different keys may be interleaved. -/
example : NoOverlap [.create 3 none none, .create 3 none (some 1), .resume 0, .resume 1, .resume 0, .resume 1, .resume 0] ∧
    ((LevelWorld.run [.create 3 none none, .create 3 none (some 1), .resume 0, .resume 1, .resume 0, .resume 1,
        .resume 0]).gens.map (fun g => g.emitted.map (fun l => l.map Prod.snd))) =
      [[[[]], [[1], [2]], [[1, 1], [1, 2], [2, 1], [2, 2]]], [[[]], [[1], [2]]]] :=
  ⟨noOverlap_of_test (by decide +kernel), by decide +kernel⟩

end Verif.Perm
