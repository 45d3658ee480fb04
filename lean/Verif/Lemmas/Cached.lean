import Verif.Model.Cached
import Mathlib.Data.List.Basic
import Mathlib.Data.Nat.Find
import Mathlib.Data.Nat.Lattice

/-! `cached_value`: the cached function agrees with the plain one. -/

namespace Verif.Cached

variable {A R E : Type*} [DecidableEq A]

omit [DecidableEq A] in
theorem plain_mono {f : A → Comp A R E} {n m : Nat} (h : n ≤ m) {c : Comp A R E} {o} (hp : plain f n c = some o) :
    plain f m c = some o := by
  induction n generalizing m c o with
  | zero => simp [plain] at hp
  | succ n ih =>
    obtain ⟨m, rfl⟩ : ∃ m', m = m' + 1 := ⟨m - 1, by omega⟩
    cases c with
    | ret r => simpa [plain] using hp
    | raise e => simpa [plain] using hp
    | call a k =>
      rw [plain] at hp ⊢
      cases h1 : plain f n (f a) with
      | none => simp [h1] at hp
      | some o1 =>
        rw [h1] at hp
        rw [ih (by omega) h1]
        exact ih (by omega) hp

omit [DecidableEq A] in
theorem plain_unique {f : A → Comp A R E} {n m : Nat} {c : Comp A R E} {o o'} (h : plain f n c = some o)
    (h' : plain f m c = some o') : o = o' := by
  have h1 := plain_mono (le_max_left n m) h
  have h2 := plain_mono (le_max_right n m) h'
  rw [h1] at h2
  exact Option.some.inj h2

/-- The cache holds values of the plain function. -/
def Good (f : A → Comp A R E) (st : State A R) : Prop := ∀ a r, st.cache a = some r → ∃ n, plain f n (f a) = some (.ok r)

/-- What is known about a body runner: outcomes are those of the plain function. -/
def SoundBody (f : A → Comp A R E) (body : State A R → Comp A R E → Option (Except E R × State A R)) : Prop :=
  ∀ st st' c o, Good f st → body st c = some (o, st') → Good f st' ∧ ∃ m, plain f m c = some o

theorem wrapped_sound {f : A → Comp A R E} {body} (hb : SoundBody f body) {st st' : State A R} {a : A} {o}
    (hg : Good f st) (hw : wrapped body f st a = some (o, st')) : Good f st' ∧ ∃ m, plain f m (f a) = some o := by
  unfold wrapped at hw
  cases hc : st.cache a with
  | some r =>
    simp only [hc, Option.some.injEq, Prod.mk.injEq] at hw
    obtain ⟨rfl, rfl⟩ := hw
    exact ⟨hg, hg a r hc⟩
  | none =>
    simp only [hc] at hw
    cases hr : body { st with log := st.log ++ [a] } (f a) with
    | none => simp [hr] at hw
    | some q =>
      obtain ⟨o2, st2⟩ := q
      obtain ⟨g2, m, hm⟩ := hb _ _ _ _ (show Good f { st with log := st.log ++ [a] } from hg) hr
      rw [hr] at hw
      cases o2 with
      | error e =>
        simp only [Option.some.injEq, Prod.mk.injEq] at hw
        obtain ⟨rfl, rfl⟩ := hw
        exact ⟨g2, m, hm⟩
      | ok r =>
        simp only [Option.some.injEq, Prod.mk.injEq] at hw
        obtain ⟨rfl, rfl⟩ := hw
        refine ⟨?_, m, hm⟩
        intro b r' hb'
        simp only at hb'
        split at hb'
        · rename_i hba
          subst hba
          simp only [Option.some.injEq] at hb'
          subst hb'
          exact ⟨m, hm⟩
        · exact g2 b r' hb'

/-- Soundness of the decorated function. -/
theorem run_sound (f : A → Comp A R E) (n : Nat) : SoundBody f (run f n) := by
  induction n with
  | zero => intro st st' c o hg h; simp [run] at h
  | succ n ih =>
    intro st st' c o hg h
    cases c with
    | ret r =>
      simp only [run, Option.some.injEq, Prod.mk.injEq] at h
      obtain ⟨rfl, rfl⟩ := h
      exact ⟨hg, 1, rfl⟩
    | raise e =>
      simp only [run, Option.some.injEq, Prod.mk.injEq] at h
      obtain ⟨rfl, rfl⟩ := h
      exact ⟨hg, 1, rfl⟩
    | call a k =>
      rw [run] at h
      cases hw : wrapped (run f n) f st a with
      | none => simp [hw] at h
      | some p =>
        obtain ⟨o1, st1⟩ := p
        rw [hw] at h
        obtain ⟨g1, m1, hm1⟩ := wrapped_sound ih hg hw
        obtain ⟨g3, m3, hm3⟩ := ih _ _ _ _ g1 h
        refine ⟨g3, max m1 m3 + 1, ?_⟩
        rw [plain, plain_mono (le_max_left m1 m3) hm1]
        exact plain_mono (le_max_right m1 m3) hm3

/-- The decorated function terminates when the plain one does. -/
theorem run_complete {f : A → Comp A R E} {n : Nat} {st : State A R} {c : Comp A R E} {o} (hg : Good f st)
    (h : plain f n c = some o) : ∃ st', run f n st c = some (o, st') := by
  induction n generalizing st c o with
  | zero => simp [plain] at h
  | succ n ih =>
    cases c with
    | ret r =>
      simp only [plain, Option.some.injEq] at h
      subst h
      exact ⟨st, rfl⟩
    | raise e =>
      simp only [plain, Option.some.injEq] at h
      subst h
      exact ⟨st, rfl⟩
    | call a k =>
      rw [plain] at h
      cases h1 : plain f n (f a) with
      | none => simp [h1] at h
      | some o1 =>
        rw [h1] at h
        have hw : ∃ st1, wrapped (run f n) f st a = some (o1, st1) := by
          unfold wrapped
          cases hc : st.cache a with
          | some r =>
            obtain ⟨m, hm⟩ := hg a r hc
            exact ⟨st, by rw [plain_unique h1 hm]⟩
          | none =>
            obtain ⟨st2, h2⟩ := ih (show Good f { st with log := st.log ++ [a] } from hg) h1
            simp only [h2]
            cases o1 with
            | ok r => exact ⟨_, rfl⟩
            | error e => exact ⟨_, rfl⟩
        obtain ⟨st1, hw⟩ := hw
        obtain ⟨st3, h3⟩ := ih (wrapped_sound (run_sound f n) hg hw).1 h
        exact ⟨st3, by rw [run, hw]; exact h3⟩

theorem wrapped_complete {f : A → Comp A R E} {n : Nat} {st : State A R} {a : A} {o} (hg : Good f st)
    (h : plain f n (f a) = some o) : ∃ st', wrapped (run f n) f st a = some (o, st') := by
  unfold wrapped
  cases hc : st.cache a with
  | some r =>
    obtain ⟨m, hm⟩ := hg a r hc
    exact ⟨st, by rw [plain_unique h hm]⟩
  | none =>
    obtain ⟨st2, h2⟩ := run_complete (show Good f { st with log := st.log ++ [a] } from hg) h
    simp only [h2]
    cases o with
    | ok r => exact ⟨_, rfl⟩
    | error e => exact ⟨_, rfl⟩

/-! ### Evaluations -/

/-- How often the body has been started on arguments on which it returns: once if the value is cached or the evaluation
is in progress, otherwise not at all. -/
def Counted (f : A → Comp A R E) (P : List A) (st : State A R) : Prop :=
  ∀ a r m, plain f m (f a) = some (.ok r) → st.log.count a = if (st.cache a).isSome ∨ a ∈ P then 1 else 0

theorem counted_congr {f : A → Comp A R E} {P Q : List A} {st st' : State A R} (h : Counted f P st)
    (h' : ∀ a r m, plain f m (f a) = some (.ok r) → st'.log.count a = st.log.count a ∧
      (((st'.cache a).isSome ∨ a ∈ Q) ↔ ((st.cache a).isSome ∨ a ∈ P))) : Counted f Q st' := by
  intro a r m hm
  obtain ⟨h1, h2⟩ := h' a r m hm
  rw [h1, h a r m hm]
  simp only [h2]

/-- The claim about a body runner; `P` are the arguments whose evaluation is in progress. -/
def CountBody (f : A → Comp A R E) (body : State A R → Comp A R E → Option (Except E R × State A R)) : Prop :=
  ∀ P st st' c o m, Good f st → Counted f P st → plain f (m + 1) c ≠ none → (∀ p ∈ P, plain f m (f p) = none) →
    body st c = some (o, st') → Counted f P st' ∧ ∀ a r, st.cache a = some r → st'.cache a = some r

theorem wrapped_count {f : A → Comp A R E} {body} (hs : SoundBody f body) (hb : CountBody f body) {P : List A}
    {st st' : State A R} {a : A} {o} {m : Nat} (hg : Good f st) (hc : Counted f P st) (hm : plain f m (f a) ≠ none)
    (hP : ∀ p ∈ P, plain f m (f p) = none) (hw : wrapped body f st a = some (o, st')) :
    Counted f P st' ∧ ∀ b r, st.cache b = some r → st'.cache b = some r := by
  classical
  unfold wrapped at hw
  cases hca : st.cache a with
  | some r =>
    simp only [hca, Option.some.injEq, Prod.mk.injEq] at hw
    obtain ⟨rfl, rfl⟩ := hw
    exact ⟨hc, fun b r h => h⟩
  | none =>
    simp only [hca] at hw
    have haP : a ∉ P := fun h => hm (hP a h)
    have hex : ∃ k, plain f k (f a) ≠ none := ⟨m, hm⟩
    have hk0 := Nat.find_spec hex
    have hkmin : ∀ j, j < Nat.find hex → plain f j (f a) = none := fun j hj => by
      simpa using Nat.find_min hex hj
    have hkle : Nat.find hex ≤ m := Nat.find_min' hex hm
    generalize Nat.find hex = k at hk0 hkmin hkle
    obtain ⟨k, rfl⟩ : ∃ k', k = k' + 1 := by
      cases k with
      | zero => simp [plain] at hk0
      | succ k => exact ⟨k, rfl⟩
    have hcount : Counted f (a :: P) { st with log := st.log ++ [a] } := by
      intro b r mb hmb
      have h0 := hc b r mb hmb
      simp only [List.count_append, h0]
      by_cases hba : b = a
      · subst hba
        simp [hca, haP]
      · have hab : ¬ a = b := fun e => hba e.symm
        simp [hba, hab]
    cases hr : body { st with log := st.log ++ [a] } (f a) with
    | none => simp [hr] at hw
    | some q =>
      obtain ⟨o2, st2⟩ := q
      have hg' : Good f { st with log := st.log ++ [a] } := hg
      have hPk : ∀ p ∈ a :: P, plain f k (f p) = none := by
        intro p hp
        rcases List.mem_cons.1 hp with rfl | hp
        · exact hkmin k (by omega)
        · cases h : plain f k (f p) with
          | none => rfl
          | some o => have := hP p hp; rw [plain_mono (by omega) h] at this; simp at this
      obtain ⟨c2, mono⟩ := hb (a :: P) _ _ _ _ k hg' hcount hk0 hPk hr
      obtain ⟨g2, m2, hm2⟩ := hs _ _ _ _ hg' hr
      rw [hr] at hw
      cases o2 with
      | error e =>
        simp only [Option.some.injEq, Prod.mk.injEq] at hw
        obtain ⟨rfl, rfl⟩ := hw
        refine ⟨counted_congr c2 (fun b r mb hmb => ⟨rfl, ?_⟩), mono⟩
        have : b ≠ a := by
          rintro rfl
          have := plain_unique hmb hm2
          cases this
        simp [this]
      | ok r =>
        simp only [Option.some.injEq, Prod.mk.injEq] at hw
        obtain ⟨rfl, rfl⟩ := hw
        refine ⟨counted_congr c2 (fun b r' mb hmb => ⟨rfl, ?_⟩), ?_⟩
        · by_cases hba : b = a
          · subst hba; simp
          · simp [hba]
        · intro b r' hb'
          simp only
          split
          · rename_i hba
            subst hba
            rw [hca] at hb'
            cases hb'
          · exact mono b r' hb'

theorem run_count (f : A → Comp A R E) (n : Nat) : CountBody f (run f n) := by
  induction n with
  | zero => intro P st st' c o m hg hc hm hP h; simp [run] at h
  | succ n ih =>
    intro P st st' c o m hg hc hm hP h
    cases c with
    | ret r =>
      simp only [run, Option.some.injEq, Prod.mk.injEq] at h
      obtain ⟨rfl, rfl⟩ := h
      exact ⟨hc, fun _ _ h => h⟩
    | raise e =>
      simp only [run, Option.some.injEq, Prod.mk.injEq] at h
      obtain ⟨rfl, rfl⟩ := h
      exact ⟨hc, fun _ _ h => h⟩
    | call a k =>
      rw [run] at h
      cases hw : wrapped (run f n) f st a with
      | none => simp [hw] at h
      | some p =>
        obtain ⟨o1, st1⟩ := p
        rw [hw] at h
        simp only at h
        rw [plain] at hm
        cases h1 : plain f m (f a) with
        | none => simp [h1] at hm
        | some o2 =>
          simp only [h1] at hm
          obtain ⟨g1, m1, hm1⟩ := wrapped_sound (run_sound f n) hg hw
          have := plain_unique h1 hm1
          subst this
          obtain ⟨c1, mono1⟩ := wrapped_count (run_sound f n) ih hg hc (m := m) (by rw [h1]; simp) hP hw
          obtain ⟨m, rfl⟩ : ∃ m', m = m' + 1 := by
            cases m with
            | zero => simp [plain] at hm
            | succ m => exact ⟨m, rfl⟩
          have hP' : ∀ p ∈ P, plain f m (f p) = none := by
            intro p hp
            cases h : plain f m (f p) with
            | none => rfl
            | some o => have := hP p hp; rw [plain_mono (by omega) h] at this; simp at this
          obtain ⟨c2, mono2⟩ := ih P _ _ _ _ m g1 c1 hm hP' h
          exact ⟨c2, fun b r hb => mono2 b r (mono1 b r hb)⟩

/-- Sequences of calls. -/
theorem runCalls_spec {f : A → Comp A R E} {n : Nat} {st st' : State A R} {as : List A} {os}
    (hg : Good f st) (hc : Counted f [] st) (h : runCalls f n st as = some (os, st')) :
    Good f st' ∧ Counted f [] st' ∧ List.Forall₂ (fun a o => ∃ m, plain f m (f a) = some o) as os := by
  induction as generalizing st os with
  | nil =>
    simp only [runCalls, Option.some.injEq, Prod.mk.injEq] at h
    obtain ⟨rfl, rfl⟩ := h
    exact ⟨hg, hc, .nil⟩
  | cons a as ih =>
    rw [runCalls] at h
    cases hw : wrapped (run f n) f st a with
    | none => simp [hw] at h
    | some p =>
      obtain ⟨o, st1⟩ := p
      simp only [hw] at h
      cases hr : runCalls f n st1 as with
      | none => simp [hr] at h
      | some q =>
        obtain ⟨os1, st2⟩ := q
        simp only [hr, Option.some.injEq, Prod.mk.injEq] at h
        obtain ⟨rfl, rfl⟩ := h
        obtain ⟨g1, m, hm⟩ := wrapped_sound (run_sound f n) hg hw
        obtain ⟨c1, -⟩ := wrapped_count (run_sound f n) (run_count f n) (m := m) hg hc (by rw [hm]; simp) (by simp) hw
        obtain ⟨g2, c2, h2⟩ := ih g1 c1 hr
        exact ⟨g2, c2, .cons ⟨m, hm⟩ h2⟩

theorem runCalls_complete {f : A → Comp A R E} {n : Nat} {st : State A R} {as : List A} (hg : Good f st)
    (h : ∀ a ∈ as, ∃ o, plain f n (f a) = some o) : ∃ os st', runCalls f n st as = some (os, st') := by
  induction as generalizing st with
  | nil => exact ⟨_, _, rfl⟩
  | cons a as ih =>
    obtain ⟨o, ho⟩ := h a (by simp)
    obtain ⟨st1, h1⟩ := wrapped_complete hg ho
    obtain ⟨os, st2, h2⟩ := ih (wrapped_sound (run_sound f n) hg h1).1 (fun b hb => h b (by simp [hb]))
    exact ⟨o :: os, st2, by rw [runCalls, h1]; simp only [h2]⟩

omit [DecidableEq A] in
theorem good_init (f : A → Comp A R E) : Good f State.init := by intro a r h; cases h

theorem counted_init (f : A → Comp A R E) : Counted f [] State.init := by
  intro a r m _; simp [State.init]

end Verif.Cached
