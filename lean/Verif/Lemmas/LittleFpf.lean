import Verif.Model.LittleFpf
import Verif.Lemmas.LittleInv
import Verif.Lemmas.FpfWords

/-! # The exchange property of words for fixed-point-free involutions -/

namespace Verif.Perm
open Verif.PermSpec
attribute [-simp] List.getD_eq_getElem?_getD
attribute [local irreducible] mul s inverse identity len fpfStart

/-- The value of a word, started at the permutation `(2, 1, 4, 3, ..., N, N - 1)`. -/
def fV (N : Nat) (a : List Nat) : SPerm := a.foldl conj (fpfStart N)

theorem fV_concat (N : Nat) (a : List Nat) (i : Nat) : fV N (a ++ [i]) = conj (fV N a) i := by simp [fV]

theorem fV_congr {N : Nat} {a b : List Nat} (h : fV N a = fV N b) (c : List Nat) : fV N (a ++ c) = fV N (b ++ c) := by
  unfold fV at h ⊢
  rw [List.foldl_append, List.foldl_append, h]

theorem fV_loop (N : Nat) (a : List Nat) : fromFpfLoop false (fpfStart N) a = some (fV N a) := by
  induction a using List.reverseRecOn with
  | nil => rw [fromFpfLoop, fV, List.foldl_nil]
  | append_singleton a i ih => rw [fromFpfLoop_concat, ih, fV_concat]; simp

theorem fV_eq (N : Nat) (a : List Nat) : fV N a = mul (mul (inverse (fromWord a)) (fpfStart N)) (fromWord a) := by
  have := fV_loop N a
  rw [fromFpfLoop_false] at this
  exact (Option.some.inj this).symm

theorem loose_fV (a : List Nat) : looseFpf a = fV (fpfSize a) a := by
  unfold looseFpf fromFpfInvolutionWord
  rw [fV_loop]; rfl

/-- The letters fit. -/
structure Fits (N : Nat) (a : List Nat) : Prop where
  even : N % 2 = 0
  letters : ∀ i ∈ a, 1 ≤ i ∧ i + 1 ≤ N

theorem Fits.fpf {N : Nat} {a : List Nat} (h : Fits N a) : Fpf N (fV N a) := fpfRun_fpf h.even h.letters (fV_loop N a)

theorem Fits.left {N : Nat} {a b : List Nat} (h : Fits N (a ++ b)) : Fits N a :=
  ⟨h.even, fun i hi => h.letters i (List.mem_append_left _ hi)⟩

theorem Fits.erase {N : Nat} {a : List Nat} (h : Fits N a) (k : Nat) : Fits N (a.eraseIdx k) :=
  ⟨h.even, fun i hi => h.letters i (List.mem_of_mem_eraseIdx hi)⟩

theorem Fits.two {N : Nat} {a : List Nat} (h : Fits N a) (k : Nat) : Fits (N + 2 * k) a :=
  ⟨by have := h.even; omega, fun i hi => by have := h.letters i hi; omega⟩

theorem fits_size {a : List Nat} (h : ∀ i ∈ a, 1 ≤ i) : Fits (fpfSize a) a :=
  ⟨fpfSize_even a, fun i hi => ⟨h i hi, lt_fpfSize hi⟩⟩

/-- A reduced word. -/
def FR (N : Nat) (a : List Nat) : Prop := fpfRun N a = some (fV N a)

theorem run_value {N : Nat} {a : List Nat} {u : SPerm} (h : fpfRun N a = some u) : u = fV N a := by
  rw [fV_eq]; exact fromFpfLoop_value h

theorem fr_concat {N : Nat} {a : List Nat} {i : Nat} :
    FR N (a ++ [i]) ↔ FR N a ∧ ¬ Desc (fV N a).call i ∧ mul (s i) (fV N a) ≠ mul (fV N a) (s i) := by
  unfold FR
  rw [fpfRun, fromFpfLoop_true_concat]
  constructor
  · rintro ⟨u, h1, h2, h3, -⟩
    obtain rfl := run_value h1
    exact ⟨h1, h2, h3⟩
  · rintro ⟨h1, h2, h3⟩
    exact ⟨_, h1, h2, h3, fV_concat ..⟩

theorem fr_prefix {N : Nat} {a b : List Nat} (h : FR N (a ++ b)) : FR N a := by
  induction b using List.reverseRecOn with
  | nil => simpa using h
  | append_singleton b i ih =>
    rw [← List.append_assoc, fr_concat] at h
    exact ih h.1

theorem flen_le {N : Nat} {a : List Nat} (h : Fits N a) : fpfInvolutionLength (fV N a) ≤ a.length := by
  obtain ⟨v, h1, -, h2, -⟩ := fromFpfLoop_len (fpf_fpfStart h.even).inv a
  rw [fV_loop, Option.some.injEq] at h1
  subst h1
  have h3 := h.fpf.fpfLength
  rw [len_fpfStart h.even] at h2
  omega

theorem fr_iff {N : Nat} {a : List Nat} (h : Fits N a) : FR N a ↔ fpfInvolutionLength (fV N a) = a.length := by
  obtain ⟨v, h1, -, -, h2, -⟩ := fromFpfLoop_len (fpf_fpfStart h.even).inv a
  rw [fV_loop, Option.some.injEq] at h1
  subst h1
  have h3 := h.fpf.fpfLength
  unfold FR
  rw [h2, len_fpfStart h.even]
  omega

/-! ### the size -/

theorem fV_two {N : Nat} {a : List Nat} (h : Fits N a) : fV (N + 2) a = mul (fV N a) (s (N + 1)) := by
  induction a using List.reverseRecOn with
  | nil => rw [fV, fV, List.foldl_nil, List.foldl_nil]; exact fpfStart_step h.even
  | append_singleton a i ih =>
    have hi := (h.letters i (by simp)).2
    rw [fV_concat, fV_concat, ih h.left, conj, conj, mul_comm_s (by omega), mul_assoc' (s i) (fV N a)]

theorem fV_inj {N : Nat} {a b : List Nat} (ha : Fits N a) (hb : Fits N b) (k : Nat) :
    fV (N + 2 * k) a = fV (N + 2 * k) b ↔ fV N a = fV N b := by
  induction k with
  | zero => rfl
  | succ k ih =>
    rw [← ih, show N + 2 * (k + 1) = N + 2 * k + 2 by omega, fV_two (ha.two k), fV_two (hb.two k)]
    exact ⟨fun h => mul_right_cancel' h, fun h => by rw [h]⟩

theorem flen_two {N : Nat} {a : List Nat} (ha : Fits N a) (k : Nat) :
    fpfInvolutionLength (fV (N + 2 * k) a) = fpfInvolutionLength (fV N a) := by
  induction k with
  | zero => rfl
  | succ k ih =>
    rw [← ih, show N + 2 * (k + 1) = N + 2 * k + 2 by omega]
    have h1 := (ha.two k).fpf
    have h2 := (ha.two (k + 1)).fpf
    rw [show N + 2 * (k + 1) = N + 2 * k + 2 by omega] at h2
    have h3 := h1.fpfLength
    have h4 := h2.fpfLength
    have hd : ¬ Desc (fV (N + 2 * k) a).call (N + 2 * k + 1) := by
      intro hc
      have := (h1.desc_lt hc).2
      omega
    have h5 := len_mul_s_of_not hd
    rw [← fV_two (ha.two k)] at h5
    have := ha.even
    omega

theorem flen_loose {a : List Nat} {N : Nat} (h : Fits N a) : fpfInvolutionLength (looseFpf a) = fpfInvolutionLength (fV N a) := by
  have h1 := fpfSize_le h.even (fun i hi => (h.letters i hi).2)
  have h2 := fpfSize_even a
  have h3 := h.even
  obtain ⟨k, rfl⟩ : ∃ k, N = fpfSize a + 2 * k := ⟨(N - fpfSize a) / 2, by omega⟩
  rw [flen_two (fits_size (fun i hi => (h.letters i hi).1)), loose_fV]

theorem fr_loose {a : List Nat} {N : Nat} (h : Fits N a) : FR N a ↔ fpfInvolutionLength (looseFpf a) = a.length := by
  rw [fr_iff h, flen_loose h]

theorem size_le_aux {n : Nat} {a b : List Nat} (ha : Fits n a) (k : Nat) (hb : Fits (n + 2 * k) b) (h1 : FR (n + 2 * k) a)
    (h2 : FR (n + 2 * k) b) (h3 : fV (n + 2 * k) a = fV (n + 2 * k) b) : ∀ i ∈ b, i + 1 ≤ n := by
  induction k with
  | zero => exact fun i hi => (hb.letters i hi).2
  | succ k ih =>
    have hw := (ha.two (k + 1)).fpf
    have he : n + 2 * (k + 1) = n + 2 * k + 2 := by omega
    unfold FR at h1 h2
    rw [he] at h1 h2 h3 hb hw
    rw [← h3] at h2
    have hv := (ha.two k).fpf
    have ht : (fV (n + 2 * k + 2) a).call ((n + 2 * k + 1 : Nat) : Int) = ((n + 2 * k + 2 : Nat) : Int) := by
      rw [fV_two (ha.two k), call_mul_tail hv.odd, if_neg (by omega)]
      unfold sFun
      (repeat' split) <;> omega
    rw [fpfRun_tail hw ht] at h1 h2
    have e1 := run_value h1
    have e2 := run_value h2
    have hw' : Fpf (n + 2 * k) (mul (fV (n + 2 * k + 2) a) (s (n + 2 * k + 1))) := hw.of_tail ht
    have hb' : Fits (n + 2 * k) b := ⟨(ha.two k).even, fun i hi => fpfRun_letters hw' h2 i hi⟩
    refine ih hb' ?_ ?_ (e1.symm.trans e2)
    · unfold FR; rw [← e1]; exact h1
    · unfold FR; rw [← e2]; exact h2

theorem size_le {N : Nat} {a b : List Nat} (ha : Fits N a) (hb : Fits N b) (h1 : FR N a) (h2 : FR N b) (h3 : fV N a = fV N b) :
    fpfSize b ≤ fpfSize a := by
  have h4 := fpfSize_le ha.even (fun i hi => (ha.letters i hi).2)
  have h5 := fpfSize_even a
  have h6 := ha.even
  obtain ⟨k, rfl⟩ : ∃ k, N = fpfSize a + 2 * k := ⟨(N - fpfSize a) / 2, by omega⟩
  exact fpfSize_le h5 (size_le_aux (fits_size (fun i hi => (ha.letters i hi).1)) k hb h1 h2 h3)

/-- Equal values of reduced words, at any size, are equal for the code. -/
theorem loose_of_fV {N : Nat} {a b : List Nat} (ha : Fits N a) (hb : Fits N b) (h1 : FR N a) (h2 : FR N b) (h3 : fV N a = fV N b) :
    looseFpf a = looseFpf b := by
  have hs : fpfSize a = fpfSize b := le_antisymm (size_le hb ha h2 h1 h3.symm) (size_le ha hb h1 h2 h3)
  have h4 := fpfSize_le ha.even (fun i hi => (ha.letters i hi).2)
  have h5 := fpfSize_even a
  have h6 := ha.even
  obtain ⟨k, rfl⟩ : ∃ k, N = fpfSize a + 2 * k := ⟨(N - fpfSize a) / 2, by omega⟩
  have ga := fits_size (fun i hi => (ha.letters i hi).1)
  have gb := fits_size (fun i hi => (hb.letters i hi).1)
  rw [← hs] at gb
  rw [loose_fV, loose_fV, ← hs]
  exact (fV_inj ga gb k).1 h3

theorem fits_loose {a : List Nat} (h : ∀ i ∈ a, 1 ≤ i) : Fpf (fpfSize a) (looseFpf a) := by
  rw [loose_fV]; exact (fits_size h).fpf

theorem size_of_loose {a b : List Nat} (ha : ∀ i ∈ a, 1 ≤ i) (hb : ∀ i ∈ b, 1 ≤ i) (h : looseFpf a = looseFpf b) : fpfSize a = fpfSize b := by
  have h1 := (fits_loose ha).rank
  rw [h, (fits_loose hb).rank] at h1
  exact h1.symm

theorem fV_of_loose {N : Nat} {a b : List Nat} (ha : Fits N a) (hb : Fits N b) (h : looseFpf a = looseFpf b) : fV N a = fV N b := by
  have hs := size_of_loose (fun i hi => (ha.letters i hi).1) (fun i hi => (hb.letters i hi).1) h
  have h4 := fpfSize_le ha.even (fun i hi => (ha.letters i hi).2)
  have h5 := fpfSize_even a
  have h6 := ha.even
  obtain ⟨k, rfl⟩ : ∃ k, N = fpfSize a + 2 * k := ⟨(N - fpfSize a) / 2, by omega⟩
  have ga := fits_size (fun i hi => (ha.letters i hi).1)
  have gb := fits_size (fun i hi => (hb.letters i hi).1)
  rw [← hs] at gb
  rw [loose_fV, loose_fV, ← hs] at h
  exact (fV_inj ga gb k).2 h

/-! ### the same words as involution words -/

/-- `1, 3, 5, ...` below `N`. -/
def odds (N : Nat) : List Nat := (List.range N).filter (fun i => i % 2 = 1)

theorem odds_two {N : Nat} (h : N % 2 = 0) : odds (N + 2) = odds N ++ [N + 1] := by
  unfold odds
  rw [List.range_succ, List.range_succ, List.filter_append, List.filter_append]
  have h1 : List.filter (fun i => decide (i % 2 = 1)) [N] = [] := by
    rw [List.filter_cons_of_neg (by simp; omega)]; rfl
  have h2 : List.filter (fun i => decide (i % 2 = 1)) [N + 1] = [N + 1] := by
    rw [List.filter_cons_of_pos (by simp; omega)]; rfl
  rw [h1, h2, List.append_nil]

theorem comm_tail {n : Nat} {v : SPerm} (hv : Odd v.call n) : mul (s (n + 1)) v = mul v (s (n + 1)) := by
  apply ext_call
  intro x
  rw [call_mul_tail hv, call_mul, call_s]
  split
  · have := hv.bound x (by assumption)
    unfold sFun
    (repeat' split) <;> omega
  · rw [hv.out x (by omega)]

theorem odds_spec (k : Nat) : looseInvolution (odds (2 * k)) = fpfStart (2 * k) ∧ IRed (odds (2 * k)) := by
  induction k with
  | zero =>
    have h1 : odds (2 * 0) = [] := rfl
    rw [h1, loose_nil, Nat.mul_zero, fpfStart_zero]
    exact ⟨rfl, by unfold IRed; rw [loose_nil]; decide +kernel⟩
  | succ k ih =>
    have hf := fpf_fpfStart (n := 2 * k) (by omega)
    rw [show 2 * (k + 1) = 2 * k + 2 by omega, odds_two (by omega), loose_concat, ired_concat, ih.1, fpfStart_step (by omega), invStep,
      if_pos (comm_tail hf.odd)]
    refine ⟨rfl, ih.2, fun hc => ?_⟩
    have := (hf.desc_lt hc).2
    omega

theorem fr_ired {N : Nat} {a : List Nat} (h : Fits N a) (hr : FR N a) : looseInvolution (odds N ++ a) = fV N a ∧ IRed (odds N ++ a) := by
  induction a using List.reverseRecOn with
  | nil =>
    obtain ⟨k, rfl⟩ : ∃ k, N = 2 * k := ⟨N / 2, by have := h.even; omega⟩
    rw [List.append_nil, fV, List.foldl_nil]
    exact odds_spec k
  | append_singleton a i ih =>
    obtain ⟨h1, h2, h3⟩ := fr_concat.1 hr
    obtain ⟨h4, h5⟩ := ih h.left h1
    rw [← List.append_assoc, loose_concat, ired_concat, h4, fV_concat, invStep, if_neg h3]
    exact ⟨rfl, h5, h2⟩

end Verif.Perm
