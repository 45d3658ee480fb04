import Verif.Model.PermWords
import Verif.Lemmas.PermLen
import Mathlib.Data.List.Induction
import Mathlib.Data.Set.Finite.Lattice

/-! Left descents, reduced words, and the generator `get_reduced_words`. -/

namespace Verif.Perm

theorem mem_leftDescents (w : SPerm) (i : Nat) : i ∈ leftDescents w ↔ Desc (inverse w).call i :=
  mem_rightDescents _ i

theorem inverse_s_mul (w : SPerm) (i : Nat) : inverse (mul (s i) w) = mul (inverse w) (s i) := by
  rw [inverse_mul_rev, inverse_s]

theorem len_s_mul_of_desc {w : SPerm} {i : Nat} (h : i ∈ leftDescents w) : len w = len (mul (s i) w) + 1 := by
  rw [mem_leftDescents] at h
  have := len_mul_s_of_desc h
  rw [← inverse_s_mul, len_inverse, len_inverse] at this
  exact this

theorem len_s_mul_of_not {w : SPerm} {i : Nat} (h : i ∉ leftDescents w) : len (mul (s i) w) = len w + 1 := by
  rw [mem_leftDescents] at h
  have := len_mul_s_of_not h
  rw [← inverse_s_mul, len_inverse, len_inverse] at this
  exact this

theorem leftDescents_identity {w : SPerm} (h : leftDescents w = []) : w = identity := by
  have : inverse w = identity := eq_identity_of_no_desc (fun i hi => by
    rw [← mem_leftDescents, h] at hi; cases hi)
  rw [← len_eq_zero, ← len_inverse, this, len_identity]

theorem leftDescents_ne_nil {w : SPerm} (h : w ≠ identity) : leftDescents w ≠ [] :=
  fun h' => h (leftDescents_identity h')

theorem leftDescents_one : leftDescents identity = [] := by decide

theorem rightDescents_one : rightDescents identity = [] := by decide

/-- from_word on an extended word. -/
@[simp] theorem fromWord_nil : fromWord [] = identity := rfl

theorem fromWord_append (a b : List Nat) : fromWord (a ++ b) = mul (fromWord a) (fromWord b) := by
  induction b using List.reverseRecOn with
  | nil => simp [fromWord, mul_one']
  | append_singleton b i ih =>
    rw [← List.append_assoc, fromWord, List.foldl_append]
    change mul (fromWord (a ++ b)) (s i) = _
    rw [ih, mul_assoc']
    congr 1
    rw [fromWord, fromWord, List.foldl_append]; rfl

@[simp] theorem fromWord_singleton (i : Nat) : fromWord [i] = s i := by
  simp [fromWord, one_mul']

theorem fromWord_cons (i : Nat) (a : List Nat) : fromWord (i :: a) = mul (s i) (fromWord a) := by
  rw [← List.singleton_append, fromWord_append, fromWord_singleton]

theorem fromWord_concat (i : Nat) (a : List Nat) : fromWord (a ++ [i]) = mul (fromWord a) (s i) := by
  rw [fromWord_append, fromWord_singleton]

theorem len_fromWord_le (a : List Nat) : len (fromWord a) ≤ a.length := by
  induction a using List.reverseRecOn with
  | nil => simp [len_identity]
  | append_singleton a i ih =>
    rw [fromWord_concat, List.length_append, List.length_singleton]
    by_cases h : Desc (fromWord a).call i
    · have := len_mul_s_of_desc h; omega
    · have := len_mul_s_of_not h; omega

/-- `a` is a reduced word of `w`. -/
def Reduced (w : SPerm) (a : List Nat) : Prop := fromWord a = w ∧ a.length = len w

theorem reduced_nil {w : SPerm} : Reduced w [] ↔ w = identity := by
  constructor
  · rintro ⟨h, _⟩; exact h.symm
  · rintro rfl; exact ⟨rfl, by simp [len_identity]⟩

theorem reduced_identity {a : List Nat} : Reduced identity a ↔ a = [] := by
  constructor
  · rintro ⟨_, h⟩; rw [len_identity] at h; exact List.eq_nil_of_length_eq_zero h
  · rintro rfl; exact reduced_nil.2 rfl

theorem reduced_cons {w : SPerm} {i : Nat} {a : List Nat} :
    Reduced w (i :: a) ↔ i ∈ leftDescents w ∧ Reduced (mul (s i) w) a := by
  constructor
  · rintro ⟨h1, h2⟩
    rw [fromWord_cons] at h1
    have h3 : fromWord a = mul (s i) w := by rw [← h1, s_mul_s_mul]
    have h4 := len_fromWord_le a
    have hd : i ∈ leftDescents w := by
      by_contra hc
      have := len_s_mul_of_not hc
      rw [h3, this] at h4
      simp at h2; omega
    have := len_s_mul_of_desc hd
    exact ⟨hd, h3, by simp at h2; omega⟩
  · rintro ⟨hd, h1, h2⟩
    have := len_s_mul_of_desc hd
    exact ⟨by rw [fromWord_cons, h1, s_mul_s_mul], by simp; omega⟩

theorem reduced_concat {w : SPerm} {i : Nat} {a : List Nat} :
    Reduced w (a ++ [i]) ↔ i ∈ rightDescents w ∧ Reduced (mul w (s i)) a := by
  rw [mem_rightDescents]
  constructor
  · rintro ⟨h1, h2⟩
    rw [fromWord_concat] at h1
    have h3 : fromWord a = mul w (s i) := by rw [← h1, mul_s_s]
    have h4 := len_fromWord_le a
    have hd : Desc w.call i := by
      by_contra hc
      have := len_mul_s_of_not hc
      rw [h3, this] at h4
      simp at h2; omega
    have := len_mul_s_of_desc hd
    exact ⟨hd, h3, by simp at h2; omega⟩
  · rintro ⟨hd, h1, h2⟩
    have := len_mul_s_of_desc hd
    exact ⟨by rw [fromWord_concat, h1, mul_s_s], by simp; omega⟩

theorem getReducedWord?_spec (fuel : Nat) (w : SPerm) (h : len w < fuel) :
    ∃ a, getReducedWord? fuel w = some a ∧ Reduced w a := by
  induction fuel generalizing w with
  | zero => omega
  | succ fuel ih =>
    rw [getReducedWord?]
    cases hm : (leftDescents w).min? with
    | none =>
      rw [List.min?_eq_none_iff] at hm
      exact ⟨[], rfl, reduced_nil.2 (leftDescents_identity hm)⟩
    | some i =>
      have hi := List.min?_mem hm
      have hl := len_s_mul_of_desc hi
      obtain ⟨a, ha, hr⟩ := ih (mul (s i) w) (by omega)
      exact ⟨i :: a, by simp [ha], reduced_cons.2 ⟨hi, hr⟩⟩

theorem getReducedWord_reduced (w : SPerm) : Reduced w (getReducedWord w) := by
  obtain ⟨a, ha, hr⟩ := getReducedWord?_spec (len w + 1) w (by omega)
  rw [getReducedWord, ha]; exact hr

theorem getReducedWord?_eq {fuel : Nat} {w : SPerm} (h : len w < fuel) :
    getReducedWord? fuel w = some (getReducedWord w) := by
  have key : ∀ (f g : Nat) (w : SPerm), len w < f → len w < g → getReducedWord? f w = getReducedWord? g w := by
    intro f
    induction f with
    | zero => intro g w h; omega
    | succ f ih =>
      intro g w hf hg
      obtain ⟨g, rfl⟩ : ∃ g', g = g' + 1 := ⟨g - 1, by omega⟩
      rw [getReducedWord?, getReducedWord?]
      cases hm : (leftDescents w).min? with
      | none => rfl
      | some i =>
        have hl := len_s_mul_of_desc (List.min?_mem hm)
        simp only
        rw [ih g (mul (s i) w) (by omega) (by omega)]
  rw [key fuel (len w + 1) w h (by omega), getReducedWord]
  obtain ⟨a, ha, -⟩ := getReducedWord?_spec (len w + 1) w (by omega)
  rw [ha]; rfl

/-! ### The generator -/

/-- `L` lists the reduced words of `w`, each once. -/
def Lists (w : SPerm) (L : List (List Nat)) : Prop := L.Nodup ∧ ∀ x, x ∈ L ↔ Reduced w x

/-- What may be stored under a key. -/
def GoodEntry (key : List Int) (L : List (List Nat)) : Prop := ∀ w : SPerm, w.oneline = key → Lists w L

/-- What the dictionary may return for a key. -/
def GoodAnswer (key : List Int) (r : Option (List (List Nat))) : Prop :=
  (key = [] → r ≠ none) ∧ ∀ L, r = some L → GoodEntry key L

/-- The dictionary is correct. -/
def GoodCache (c : WordCache) : Prop := ∀ key, GoodAnswer key (c key)

/-- The generator, which has already yielded `E`, will yield the remaining elements of `T`, each once, whatever correct
dictionary it sees at each lookup; and it only stores correct entries. -/
def Sound (T : List Nat → Prop) : Gen → List (List Nat) → Prop
  | .done, E => ∀ x, x ∈ E ↔ T x
  | .yield x g, E => x ∉ E ∧ T x ∧ Sound T g (E ++ [x])
  | .lookup key h, E => ∀ r, GoodAnswer key r → Sound T (h r) E
  | .store key v g, E => GoodEntry key v ∧ Sound T g E
  | .fail, _ => False

theorem sound_yieldAll {T : List Nat → Prop} {L E : List (List Nat)} (hn : (E ++ L).Nodup)
    (h : ∀ x, x ∈ E ++ L ↔ T x) : Sound T (Gen.yieldAll L) E := by
  induction L generalizing E with
  | nil => simpa [Gen.yieldAll, Sound] using h
  | cons x L ih =>
    rw [Gen.yieldAll, Sound]
    refine ⟨?_, (h x).1 (by simp), ih (by simpa using hn) (by simpa using h)⟩
    intro hx
    rw [List.nodup_append] at hn
    exact hn.2.2 x hx x (by simp) rfl

theorem addWord_of_not {L : List (List Nat)} {x : List Nat} (h : x ∉ L) : addWord L x = L ++ [x] := if_neg h

theorem sound_collect {T T1 : List Nat → Prop} {i : Nat} {k : List (List Nat) → Gen} {g : Gen} {E0 E1 : List (List Nat)}
    (hg : Sound T1 g E1) (hn1 : E1.Nodup) (h0 : ∀ x, x ++ [i] ∉ E0) (hT : ∀ x, T1 x → T (x ++ [i]))
    (hk : ∀ E1' : List (List Nat), E1'.Nodup → (∀ x, x ∈ E1' ↔ T1 x) → Sound T (k (E0 ++ E1'.map (fun x => x ++ [i]))) (E0 ++ E1'.map (fun x => x ++ [i]))) :
    Sound T (Gen.collect i k g (E0 ++ E1.map (fun x => x ++ [i]))) (E0 ++ E1.map (fun x => x ++ [i])) := by
  induction g generalizing E1 with
  | done => exact hk E1 hn1 hg
  | yield x g ih =>
    obtain ⟨hx, hTx, hg⟩ := hg
    rw [Gen.collect, Sound]
    have hn : x ++ [i] ∉ E0 ++ E1.map (fun x => x ++ [i]) := by
      rw [List.mem_append, List.mem_map]
      rintro (h | ⟨y, hy, he⟩)
      · exact h0 x h
      · rw [List.append_cancel_right_eq] at he
        exact hx (he ▸ hy)
    refine ⟨hn, hT x hTx, ?_⟩
    rw [addWord_of_not hn]
    have := ih hg (by simpa [List.nodup_append] using ⟨hn1, fun a ha he => hx (he ▸ ha)⟩)
    simpa using this
  | lookup key h ih =>
    rw [Gen.collect, Sound]
    intro r hr
    exact ih r (hg r hr) hn1
  | store key v g ih => exact ⟨hg.1, ih hg.2 hn1⟩
  | fail => exact hg.elim

/-- An order in which the right descent sets are iterated over. -/
def IsOrder (ord : SPerm → List Nat) : Prop := ∀ w, (ord w).Perm (rightDescents w)

theorem reduced_snoc {w : SPerm} (hw : w ≠ identity) {x : List Nat} (hx : Reduced w x) :
    ∃ i y, x = y ++ [i] ∧ i ∈ rightDescents w ∧ Reduced (mul w (s i)) y := by
  rcases List.eq_nil_or_concat x with rfl | ⟨y, i, rfl⟩
  · exact absurd (reduced_nil.1 hx) hw
  · rw [List.concat_eq_append] at *
    exact ⟨i, y, rfl, reduced_concat.1 hx⟩

theorem sound_loop {gen : SPerm → Gen} {w : SPerm} (hw : w ≠ identity)
    (hgen : ∀ i ∈ rightDescents w, Sound (Reduced (mul w (s i))) (gen (mul w (s i))) [])
    (ds : List Nat) : ∀ (pre : List Nat) (E : List (List Nat)), (pre ++ ds).Nodup → (∀ i, i ∈ pre ++ ds ↔ i ∈ rightDescents w) →
      E.Nodup → (∀ x, x ∈ E ↔ Reduced w x ∧ ∃ i ∈ pre, ∃ y, x = y ++ [i]) → Sound (Reduced w) (wordsLoop gen w ds E) E := by
  induction ds with
  | nil =>
    intro pre E hn hmem hE hx
    have hall : ∀ x, x ∈ E ↔ Reduced w x := by
      intro x
      rw [hx]
      refine ⟨fun h => h.1, fun h => ⟨h, ?_⟩⟩
      obtain ⟨i, y, hy, hi, -⟩ := reduced_snoc hw h
      exact ⟨i, by simpa using (hmem i).2 hi, y, hy⟩
    refine ⟨?_, hall⟩
    intro v hv
    have : v = w := by cases v; cases w; simp_all
    subst this
    exact ⟨hE, hall⟩
  | cons i ds ih =>
    intro pre E hn hmem hE hx
    have hi : i ∈ rightDescents w := (hmem i).1 (by simp)
    have hpre : i ∉ pre := by
      intro hc
      rw [List.nodup_append] at hn
      exact hn.2.2 i hc i (by simp) rfl
    have h0 : ∀ x, x ++ [i] ∉ E := by
      intro x hc
      obtain ⟨-, j, hj, y, hy⟩ := (hx _).1 hc
      have := List.append_inj' hy rfl
      simp at this
      exact hpre (this.2 ▸ hj)
    rw [wordsLoop]
    have key := sound_collect (T := Reduced w) (k := fun words => wordsLoop gen w ds words) (E0 := E)
      (hgen i hi) List.nodup_nil h0 (fun x h => reduced_concat.2 ⟨hi, h⟩) ?_
    · simpa using key
    intro E1 hnE1 hE1
    have hm : ∀ x, x ∈ E ++ E1.map (fun x => x ++ [i]) ↔ Reduced w x ∧ ∃ j ∈ pre ++ [i], ∃ y, x = y ++ [j] := by
      intro x
      rw [List.mem_append, hx, List.mem_map]
      constructor
      · rintro (⟨h1, j, hj, y, rfl⟩ | ⟨y, hy, rfl⟩)
        · exact ⟨h1, j, by simp [hj], y, rfl⟩
        · exact ⟨reduced_concat.2 ⟨hi, (hE1 y).1 hy⟩, i, by simp, y, rfl⟩
      · rintro ⟨h1, j, hj, y, rfl⟩
        rw [List.mem_append, List.mem_singleton] at hj
        rcases hj with hj | rfl
        · exact Or.inl ⟨h1, j, hj, y, rfl⟩
        · exact Or.inr ⟨y, (hE1 y).2 (reduced_concat.1 h1).2, rfl⟩
    refine ih (pre ++ [i]) _ (by simpa using hn) (by simpa using hmem) ?_ hm
    rw [List.nodup_append]
    refine ⟨hE, hnE1.map (fun a b h => by simpa using h), ?_⟩
    intro a ha b hb hab
    obtain ⟨y, -, rfl⟩ := List.mem_map.1 hb
    exact h0 y (hab ▸ ha)

theorem sound_gen {ord : SPerm → List Nat} (ho : IsOrder ord) (fuel : Nat) (w : SPerm) (h : len w < fuel) :
    Sound (Reduced w) (reducedWordsGen ord fuel w) [] := by
  induction fuel generalizing w with
  | zero => omega
  | succ fuel ih =>
    rw [reducedWordsGen, Sound]
    rintro r ⟨hr1, hr2⟩
    cases r with
    | some L =>
      obtain ⟨hn, hm⟩ := hr2 L rfl w rfl
      exact sound_yieldAll (by simpa using hn) (by simpa using hm)
    | none =>
      have hw : w ≠ identity := by
        rintro rfl
        exact hr1 rfl rfl
      refine sound_loop hw (fun i hi => ?_) (ord w) [] [] (by simpa using (ho w).nodup_iff.2 (rightDescents_nodup w))
        (fun i => by simpa using (ho w).mem_iff) List.nodup_nil (by simp)
      have := len_mul_s_of_desc ((mem_rightDescents w i).1 hi)
      exact ih _ (by omega)

theorem goodCache_initial : GoodCache initialCache := by
  intro key
  refine ⟨fun h => by simp [initialCache, h], fun L hL w hw => ?_⟩
  unfold initialCache at hL
  split at hL
  · cases hL
    have : w = identity := by cases w; simp_all [identity]
    subst this
    exact ⟨by simp, fun x => by simp [reduced_identity]⟩
  · cases hL

/-- One call of `next`. -/
theorem sound_next {T : List Nat → Prop} {g : Gen} {E : List (List Nat)} {c : WordCache} (hg : Sound T g E)
    (hc : GoodCache c) : GoodCache (g.next c).2.2 ∧
      ((∃ x, (g.next c).1 = some (some x) ∧ x ∉ E ∧ T x ∧ Sound T (g.next c).2.1 (E ++ [x])) ∨
        ((g.next c).1 = some none ∧ (∀ x, x ∈ E ↔ T x) ∧ Sound T (g.next c).2.1 E)) := by
  induction g generalizing c with
  | done => exact ⟨hc, Or.inr ⟨rfl, hg, hg⟩⟩
  | yield x g ih => exact ⟨hc, Or.inl ⟨x, rfl, hg.1, hg.2.1, hg.2.2⟩⟩
  | lookup key h ih => exact ih (c key) (hg _ (hc key)) hc
  | store key v g ih =>
    refine ih hg.2 ?_
    intro key'
    by_cases h : key = key'
    · subst h
      simp only [if_true]
      exact ⟨fun _ => by simp, fun L hL => by cases hL; exact hg.1⟩
    · simp only [h, if_false]; exact hc key'
  | fail => exact hg.elim

/-- The invariant of a live generator. -/
structure GoodLive (g : LiveGen) : Prop where
  sound : Sound (Reduced g.perm) g.rest g.emitted
  nodup : g.emitted.Nodup
  sub : ∀ x ∈ g.emitted, Reduced g.perm x
  fin : g.finished = true → ∀ x, x ∈ g.emitted ↔ Reduced g.perm x
  ok : g.failed = false

theorem good_step {ord : SPerm → List Nat} (ho : IsOrder ord) {st : WordWorld} (hc : GoodCache st.cache)
    (hg : ∀ g ∈ st.gens, GoodLive g) (a : WordAction) :
    GoodCache (st.step ord a).cache ∧ ∀ g ∈ (st.step ord a).gens, GoodLive g := by
  cases a with
  | create w =>
    refine ⟨hc, fun g h => ?_⟩
    simp only [WordWorld.step, List.mem_append, List.mem_singleton] at h
    rcases h with h | rfl
    · exact hg g h
    · exact ⟨sound_gen ho _ _ (Nat.lt_succ_self _), by simp, by simp, by simp, rfl⟩
  | resume k =>
    unfold WordWorld.step
    simp only
    cases hk : st.gens[k]? with
    | none => exact ⟨hc, hg⟩
    | some g =>
      have hgl := hg g (List.mem_of_getElem? hk)
      obtain ⟨h1, h2⟩ := sound_next hgl.sound hc
      simp only
      refine ⟨h1, fun g' hg' => ?_⟩
      rcases List.mem_or_eq_of_mem_set hg' with h | h
      · exact hg g' h
      · rcases h2 with ⟨x, hx, hxE, hTx, hs⟩ | ⟨hx, hall, hs⟩
        · rw [hx] at h
          subst h
          refine ⟨hs, ?_, ?_, ?_, hgl.ok⟩
          · simpa [List.nodup_append] using ⟨hgl.nodup, fun a ha he => hxE (he ▸ ha)⟩
          · simp only [List.mem_append, List.mem_singleton]
            rintro y (hy | rfl)
            · exact hgl.sub y hy
            · exact hTx
          · intro hf
            exact absurd ((hgl.fin hf x).2 hTx) hxE
        · rw [hx] at h
          subst h
          exact ⟨hs, hgl.nodup, hgl.sub, fun _ => hall, hgl.ok⟩

theorem good_run {ord : SPerm → List Nat} (ho : IsOrder ord) (history : List WordAction) :
    GoodCache (WordWorld.run ord history).cache ∧ ∀ g ∈ (WordWorld.run ord history).gens, GoodLive g := by
  unfold WordWorld.run
  induction history using List.reverseRecOn with
  | nil => exact ⟨goodCache_initial, by simp⟩
  | append_singleton h a ih =>
    rw [List.foldl_append]
    exact good_step ho ih.1 ih.2 a

theorem finite_reduced (w : SPerm) : {x | Reduced w x}.Finite := by
  induction hn : len w using Nat.strong_induction_on generalizing w with
  | _ n ih =>
    by_cases hw : w = identity
    · subst hw
      refine (Set.finite_singleton ([] : List Nat)).subset (fun x hx => ?_)
      exact reduced_identity.1 hx
    · have hfin : (⋃ i ∈ {i | i ∈ rightDescents w}, (fun y => y ++ [i]) '' {y | Reduced (mul w (s i)) y}).Finite := by
        refine Set.Finite.biUnion (List.finite_toSet _) (fun i hi => Set.Finite.image _ ?_)
        have := len_mul_s_of_desc ((mem_rightDescents w i).1 hi)
        exact ih (len (mul w (s i))) (by omega) _ rfl
      refine hfin.subset (fun x hx => ?_)
      obtain ⟨i, y, rfl, hi, hy⟩ := reduced_snoc hw hx
      simp only [Set.mem_iUnion]
      exact ⟨i, hi, y, hy, rfl⟩

theorem run_concat {ord : SPerm → List Nat} (h : List WordAction) (a : WordAction) :
    WordWorld.run ord (h ++ [a]) = (WordWorld.run ord h).step ord a := by
  rw [WordWorld.run, List.foldl_append]; rfl

/-- Resuming a generator makes it yield a further word or finish. -/
theorem resume_progress {ord : SPerm → List Nat} (ho : IsOrder ord) {history : List WordAction} {k : Nat} {g : LiveGen}
    (hk : (WordWorld.run ord history).gens[k]? = some g) :
    ∃ g', (WordWorld.run ord (history ++ [.resume k])).gens[k]? = some g' ∧ g'.perm = g.perm ∧
      (g'.finished = true ∨ g'.emitted.length = g.emitted.length + 1) := by
  rw [run_concat]
  obtain ⟨hc, hg⟩ := good_run ho history
  have hgl := hg g (List.mem_of_getElem? hk)
  obtain ⟨h1, h2⟩ := sound_next hgl.sound hc
  unfold WordWorld.step
  simp only [hk]
  have hlt : k < (WordWorld.run ord history).gens.length := (List.getElem?_eq_some_iff.1 hk).1
  rw [List.getElem?_set_self hlt]
  refine ⟨_, rfl, ?_⟩
  rcases h2 with ⟨x, hx, hxE, hTx, hs⟩ | ⟨hx, hall, hs⟩
  · rw [hx]; simp
  · rw [hx]; simp

theorem resume_exhausts {ord : SPerm → List Nat} (ho : IsOrder ord) {history : List WordAction} {k : Nat} {g : LiveGen}
    (hk : (WordWorld.run ord history).gens[k]? = some g) :
    ∃ m g', (WordWorld.run ord (history ++ List.replicate m (.resume k))).gens[k]? = some g' ∧ g'.perm = g.perm ∧
      g'.finished = true := by
  classical
  have key : ∀ m, ∃ m' g', m' ≤ m ∧ (WordWorld.run ord (history ++ List.replicate m' (.resume k))).gens[k]? = some g' ∧
      g'.perm = g.perm ∧ (g'.finished = true ∨ m ≤ g'.emitted.length) := by
    intro m
    induction m with
    | zero => exact ⟨0, g, le_rfl, by simpa using hk, rfl, Or.inr (by omega)⟩
    | succ m ih =>
      obtain ⟨m', g', hm', h1, h2, h3⟩ := ih
      rcases h3 with h3 | h3
      · exact ⟨m', g', by omega, h1, h2, Or.inl h3⟩
      · obtain ⟨g'', k1, k2, k3⟩ := resume_progress ho h1
        refine ⟨m' + 1, g'', by omega, ?_, by rw [k2, h2], ?_⟩
        · rw [List.replicate_succ', ← List.append_assoc]; exact k1
        · rcases k3 with k3 | k3
          · exact Or.inl k3
          · exact Or.inr (by omega)
  obtain ⟨m, g', -, h1, h2, h3⟩ := key ((finite_reduced g.perm).toFinset.card + 1)
  refine ⟨m, g', h1, h2, ?_⟩
  rcases h3 with h3 | h3
  · exact h3
  · exfalso
    have hgl := (good_run ho (history ++ List.replicate m (.resume k))).2 g' (List.mem_of_getElem? h1)
    have h4 : g'.emitted.toFinset ⊆ (finite_reduced g.perm).toFinset := by
      intro x hx
      rw [Set.Finite.mem_toFinset]
      exact h2 ▸ hgl.sub x (List.mem_toFinset.1 hx)
    have h5 := Finset.card_le_card h4
    rw [List.toFinset_card_of_nodup hgl.nodup] at h5
    omega

end Verif.Perm
